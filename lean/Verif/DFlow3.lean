/-
Data types of results (C59): the property theorems.
-/
import Verif.DFlow2

set_option linter.unusedSectionVars false
set_option linter.unusedVariables false

namespace Verif

variable {K D : Type} [Field K] [LinearOrder K]

/-! ### Typed matrices and what is left of them without values -/

theorem TMat.all_iff {S : D → Prop} (a : TMat K D) : a.skel.All S ↔ ∀ d, a.HasD d → S d := by
  induction a with
  | lr l r m hl hr hm =>
    simp only [TMat.skel, DM.All, hl, hr, hm, TMat.HasD]
    exact ⟨fun h d hd => hd.elim (h.1 d) fun hd => hd.elim (h.2.1 d) (h.2.2 d), fun h => ⟨fun d hd => h d (.inl hd), fun d hd => h d (.inr (.inl hd)), fun d hd => h d (.inr (.inr hd))⟩⟩
  | wb e l r m hl hr hm =>
    simp only [TMat.skel, DM.All, hl, hr, hm, TMat.HasD]
    exact ⟨fun h d hd => by
        rcases hd with rfl | hd | hd | hd
        · exact h.1
        · exact h.2.1 d hd
        · exact h.2.2.1 d hd
        · exact h.2.2.2 d hd,
      fun h => ⟨h _ (.inl rfl), fun d hd => h d (.inr (.inl hd)), fun d hd => h d (.inr (.inr (.inl hd))), fun d hd => h d (.inr (.inr (.inr hd)))⟩⟩
  | kron l r hl hr =>
    simp only [TMat.skel, DM.All, hl, hr, TMat.HasD]
    exact ⟨fun h d hd => hd.elim (h.1 d) (h.2 d), fun h => ⟨fun d hd => h d (.inl hd), fun d hd => h d (.inr hd)⟩⟩
  | tiled n blk reps axis ih =>
    simp only [TMat.skel, DM.All, ih, TMat.HasD]
    exact ⟨fun h d ⟨i, hd⟩ => h i d hd, fun h i d hd => h d ⟨i, hd⟩⟩
  | _ => exact ⟨fun h d hd => hd ▸ h, fun h => h _ rfl⟩

theorem promoteL_foldP {δ : DEnv K D} {l : List D} {d : D} : promoteL δ l = .ok d ↔ FoldP δ.promote l d := by
  cases l with
  | nil =>
    constructor
    · intro h; cases h
    · intro h; exact h.elim
  | cons x l =>
    constructor
    · intro h; injection h
    · intro h; exact congrArg _ h

/-- `B.dtype(a)` of a typed matrix depends only on its class and the data types of its arrays. -/
theorem dtypeM_iff {δ : DEnv K D} (a : TMat K D) {d : D} : dtypeM δ a = .ok d ↔ a.skel.DtIs δ.promote d := by
  induction a generalizing d with
  | lr l r m hl hr hm =>
    simp only [dtypeM, bind_ok_iff, TMat.skel, DM.DtIs]
    exact ⟨fun ⟨x, h1, y, h2, w, h3, h4⟩ => ⟨x, y, w, hl.1 h1, hr.1 h2, hm.1 h3, promoteL_foldP.1 h4⟩, fun ⟨x, y, w, h1, h2, h3, h4⟩ => ⟨x, hl.2 h1, y, hr.2 h2, w, hm.2 h3, promoteL_foldP.2 h4⟩⟩
  | wb e l r m hl hr hm =>
    simp only [dtypeM, bind_ok_iff, TMat.skel, DM.DtIs]
    constructor
    · rintro ⟨x, h1, y, h2, w, h3, v, h4, h5⟩
      have h4 := promoteL_foldP.1 h4
      have h5 := promoteL_foldP.1 h5
      subst h4
      exact ⟨x, y, w, hl.1 h1, hr.1 h2, hm.1 h3, h5⟩
    · rintro ⟨x, y, w, h1, h2, h3, h4⟩
      exact ⟨x, hl.2 h1, y, hr.2 h2, w, hm.2 h3, _, rfl, promoteL_foldP.2 h4⟩
  | kron l r hl hr =>
    simp only [dtypeM, bind_ok_iff, TMat.skel, DM.DtIs]
    exact ⟨fun ⟨x, h1, y, h2, h4⟩ => ⟨x, y, hl.1 h1, hr.1 h2, promoteL_foldP.1 h4⟩, fun ⟨x, y, h1, h2, h4⟩ => ⟨x, hl.2 h1, y, hr.2 h2, promoteL_foldP.2 h4⟩⟩
  | tiled n blk reps axis ih =>
    simp only [dtypeM, bind_ok_iff, TMat.skel, DM.DtIs]
    constructor
    · rintro ⟨ds, h1, h2⟩
      exact ⟨ds, fun i => (ih i).1 (seqFin_ok.1 h1 i), promoteL_foldP.1 h2⟩
    · rintro ⟨ds, h1, h2⟩
      exact ⟨ds, seqFin_ok.2 fun i => (ih i).2 (h1 i), promoteL_foldP.2 h2⟩
  | _ => exact ⟨fun h => by injection h, fun h => congrArg _ h⟩

theorem TMat.ok_of_wf {a : TMat K D} {S : Shp} (h : a.mat.WF S) : a.skel.Ok := by
  induction a generalizing S with
  | lr l r m hl hr hm => exact ⟨hl h.1.1, hr h.1.2.1, hm h.1.2.2⟩
  | wb e l r m hl hr hm => exact ⟨hl h.2.1.1, hr h.2.1.2.1, hm h.2.1.2.2⟩
  | kron l r hl hr => exact ⟨hl h.1.1, hr h.1.2⟩
  | tiled n blk reps axis ih =>
    obtain ⟨k, _, h0, _, h1, _⟩ := h
    exact ⟨h0, fun i => ih i (h1 i)⟩
  | _ => exact True.intro

/-! ### The operations -/

/-- The binary operations `B.add(a, b)`, `B.multiply(a, b)` and `B.matmul(a, b, tr_a, tr_b)`. -/
inductive DOp2 where
  | add
  | mul
  | matmul (ta tb : Bool)

/-- Call the operation. -/
def DOp2.run (B : Ops K) : DOp2 → Mat K → Mat K → E (Mat K)
  | .add => B.add
  | .mul => B.mul
  | .matmul ta tb => B.matmul ta tb

/-- The same call without values. -/
def DOp2.call : DOp2 → DM D → DM D → DCall D
  | .add => .add
  | .mul => .mul
  | .matmul ta tb => .matmul ta tb

theorem DOp2.call_all {S : D → Prop} (op : DOp2) {a b : DM D} : (op.call a b).All S ↔ a.All S ∧ b.All S := by cases op <;> exact Iff.rfl
theorem DOp2.call_ok (op : DOp2) {a b : DM D} : (op.call a b).Ok ↔ a.Ok ∧ b.Ok := by cases op <;> exact Iff.rfl
theorem DOp2.call_noZero (op : DOp2) {a b : DM D} : (op.call a b).NoZero ↔ a.NoZero ∧ b.NoZero := by cases op <;> exact Iff.rfl

/-- The typed matrix `r` is a result of the operation on the typed matrices `a` and `b`: its values are a result of the run, its data types are those which the operation
gives to the arrays of the result when the arrays of `a` and `b` have the data types of `a` and `b`. -/
def TReturns (c : Cfg K) (p : D → D → D) (op : DOp2) (a b r : TMat K D) : Prop :=
  Returns c (fun B => op.run B a.mat b.mat) r.mat ∧ Runs p true (op.call a.skel b.skel) r.skel

/-- The same for runs in which no number is an exact zero and no sum of two low-rank matrices vanishes. -/
def TReturnsNoZero (c : Cfg K) (p : D → D → D) (op : DOp2) (a b r : TMat K D) : Prop :=
  Returns c (fun B => op.run B a.mat b.mat) r.mat ∧ Runs p false (op.call a.skel b.skel) r.skel

/-- The tests of the code, stopping when a sum of low-rank matrices vanishes (`ops/add.py` 192-199). -/
def Cfg.noCancel (c : Cfg K) : Env K := { c.code with isZero := fun t => do if ← c.code.isZero t then .error .inexact else pure false }

theorem Cfg.noCancel_below (c : Cfg K) : Env.Below (· = .inexact) c.noCancel c.code where
  isNumber := rfl
  argsort := rfl
  colEq _ _ _ _ := .refl _
  isZero t := by
    show Below _ (c.code.isZero t >>= _) _
    cases h : c.code.isZero t with
    | error e => exact .refl _
    | ok b => cases b with
      | false => exact .refl _
      | true => exact Or.inr ⟨.inexact, rfl, rfl⟩

theorem Cfg.noCancel_zeros {c : Cfg K} (hn : ∀ t, c.isNumber t = true → t.get (fun _ => 0) ≠ 0) : c.noCancel.Zeros false := by
  refine fun _ => ⟨hn, fun t h => ?_⟩
  simp only [Cfg.noCancel, bind_ok_iff] at h
  obtain ⟨b, _, h⟩ := h
  cases b <;> cases h

/-- The call returns `r` in a run in which no sum of two low-rank matrices vanishes: the run is the same if it has to stop when one does. -/
def ReturnsUncancelled {α : Type} (c : Cfg K) (f : Ops K → E α) (r : α) : Prop := ∃ n, f (ops c.noCancel n) = .ok r

theorem ReturnsUncancelled.returns {α : Type} {c : Cfg K} {f : Ops K → E α} {r : α} (hf : Calls f) (h : ReturnsUncancelled c f r) : Returns c f r :=
  h.imp fun n h => (hf _ _ _ (ops_below_env c.noCancel_below n)).ok h

theorem DOp2.calls (op : DOp2) (a b : Mat K) : Calls fun B => op.run B a b := by
  cases op with
  | add => exact Calls.add a b
  | mul => exact Calls.mul a b
  | matmul ta tb => exact Calls.matmul ta tb a b

theorem DOp2.cov {z : Bool} {p : D → D → D} {B : Ops K} (H : Cov p z B) (op : DOp2) {a b r : Mat K} {s s' : DM D} (ha : Lab a s) (hb : Lab b s') (oa : s.Ok) (ob : s'.Ok)
    (h : op.run B a b = .ok r) : ∃ x, Lab r x ∧ Runs p z (op.call s s') x := by
  cases op with
  | add => exact H.add ha hb oa ob h
  | mul => exact H.mul ha hb oa ob h
  | matmul ta tb => exact H.matmul ha hb oa ob h

/-- **C59.** Every result of `B.add`, `B.multiply` and `B.matmul` of typed matrices is a typed matrix: the rules for the data types cover every run. -/
theorem C59_covered {c : Cfg K} (p : D → D → D) (op : DOp2) {a b : TMat K D} {r : Mat K} (ha : a.mat.Valid) (hb : b.mat.Valid)
    (h : Returns c (fun B => op.run B a.mat b.mat) r) : ∃ r' : TMat K D, r'.mat = r ∧ TReturns c p op a b r' := by
  obtain ⟨n, hn⟩ := h
  obtain ⟨x, l, run⟩ := op.cov (ops_cov p (z := true) (fun h => by cases h) n) a.lab b.lab (TMat.ok_of_wf ha.choose_spec) (TMat.ok_of_wf hb.choose_spec) hn
  obtain ⟨t, rfl, rfl⟩ := l.typed
  exact ⟨t, rfl, ⟨n, hn⟩, run⟩

/-- **C59.** The same without zeros: no exact zero is a Python number and no sum of low-rank matrices vanishes in the run. -/
theorem C59_covered_nozero {c : Cfg K} (p : D → D → D) (op : DOp2) {a b : TMat K D} {r : Mat K} (ha : a.mat.Valid) (hb : b.mat.Valid)
    (hn : ∀ t, c.isNumber t = true → t.get (fun _ => 0) ≠ 0) (h : ReturnsUncancelled c (fun B => op.run B a.mat b.mat) r) :
    ∃ r' : TMat K D, r'.mat = r ∧ TReturnsNoZero c p op a b r' := by
  have h' := h.returns (op.calls _ _)
  obtain ⟨n, hr⟩ := h
  obtain ⟨x, l, run⟩ := op.cov (ops_cov p (Cfg.noCancel_zeros hn) n) a.lab b.lab (TMat.ok_of_wf ha.choose_spec) (TMat.ok_of_wf hb.choose_spec) hr
  obtain ⟨t, rfl, rfl⟩ := l.typed
  exact ⟨t, rfl, h', run⟩

/-- **C59.** No data type appears out of nowhere: every data type in the result is in every set of data types that contains those of the operands and is closed under promotion. -/
theorem C59_closed {c : Cfg K} {p : D → D → D} {op : DOp2} {a b r : TMat K D} (h : TReturns c p op a b r) {S : D → Prop} (hS : ∀ x y, S x → S y → S (p x y))
    (ha : ∀ d, a.HasD d → S d) (hb : ∀ d, b.HasD d → S d) (d : D) (hd : r.HasD d) : S d :=
  (r.all_iff.1 (h.2.all hS (op.call_all.2 ⟨a.all_iff.2 ha, b.all_iff.2 hb⟩))) d hd

/-- **C59.** Single precision stays single precision: if all arrays of the operands have data type `d`, all arrays of the result do, and so does the result. -/
theorem C59_uniform {c : Cfg K} {δ : DEnv K D} {d : D} (hδ : δ.promote d d = d) {op : DOp2} {a b r : TMat K D} (ha : a.mat.Valid) (hb : b.mat.Valid) (h : TReturns c δ.promote op a b r)
    (h1 : ∀ e, a.HasD e → e = d) (h2 : ∀ e, b.HasD e → e = d) : (∀ e, r.HasD e → e = d) ∧ dtypeM δ r = .ok d := by
  have hc : ∀ e, r.HasD e → e = d := C59_closed h (S := (· = d)) (by rintro x y rfl rfl; exact hδ) h1 h2
  refine ⟨hc, ?_⟩
  obtain ⟨e, he⟩ := (h.2.ok (op.call_ok.2 ⟨TMat.ok_of_wf ha.choose_spec, TMat.ok_of_wf hb.choose_spec⟩)).dt δ.promote
  have := he.all (S := (· = d)) (by rintro x y rfl rfl; exact hδ) (r.all_iff.2 hc)
  subst this
  exact (dtypeM_iff r).2 he

section
variable [SemilatticeSup D]

/-- **C59.** The data type of the result is at most the promotion of the data types of the operands. -/
theorem C59_at_most {c : Cfg K} {δ : DEnv K D} (hδ : δ.promote = (· ⊔ ·)) {op : DOp2} {a b r : TMat K D} {da db : D} (ha : a.mat.Valid) (hb : b.mat.Valid) (h : TReturns c δ.promote op a b r)
    (h1 : dtypeM δ a = .ok da) (h2 : dtypeM δ b = .ok db) : ∃ d, dtypeM δ r = .ok d ∧ d ≤ da ⊔ db := by
  obtain ⟨e, he⟩ := (h.2.ok (op.call_ok.2 ⟨TMat.ok_of_wf ha.choose_spec, TMat.ok_of_wf hb.choose_spec⟩)).dt δ.promote
  refine ⟨e, (dtypeM_iff r).2 he, ?_⟩
  rw [dtypeM_iff, hδ] at h1 h2
  rw [hδ] at he
  have hr := h.2
  rw [hδ] at hr
  exact he.le.2 (hr.all (fun _ _ => sup_le) (op.call_all.2 ⟨h1.le.1 le_sup_left, h2.le.1 le_sup_right⟩))

/-- **C59.** Without zeros the data type of the result is the promotion of the data types of the operands. -/
theorem C59_promoted {c : Cfg K} {δ : DEnv K D} (hδ : δ.promote = (· ⊔ ·)) {op : DOp2} {a b r : TMat K D} {da db : D} (ha : a.mat.Valid) (hb : b.mat.Valid)
    (na : a.skel.NoZero) (nb : b.skel.NoZero) (h : TReturnsNoZero c δ.promote op a b r) (h1 : dtypeM δ a = .ok da) (h2 : dtypeM δ b = .ok db) :
    dtypeM δ r = .ok (da ⊔ db) := by
  obtain ⟨e, he⟩ := (h.2.ok (op.call_ok.2 ⟨TMat.ok_of_wf ha.choose_spec, TMat.ok_of_wf hb.choose_spec⟩)).dt δ.promote
  have he' := he
  rw [dtypeM_iff, hδ] at h1 h2
  rw [hδ] at he
  have hr := h.2
  rw [hδ] at hr
  have : e = da ⊔ db := eq_of_forall_ge_iff fun u => by
    rw [he.le, hr.exact (op.call_noZero.2 ⟨na, nb⟩) u, op.call_all, sup_le_iff, h1.le, h2.le]
  subst this
  exact (dtypeM_iff r).2 he'

end

/-! ### The numeric value, the diagonal and the sums -/

/-- `B.dense(a)`, `B.diag(a)` and `B.sum(a, axis)` over an axis of the matrix. -/
inductive DOp1 where
  | dense
  | diag
  | sum (k : ℕ)

/-- Call the operation. -/
def DOp1.run (B : Ops K) : DOp1 → Mat K → E (Tensor K)
  | .dense => B.dense
  | .diag => B.diag
  | .sum k => B.sumM k

/-- The same call without values. -/
def DOp1.call : DOp1 → DM D → DCall D
  | .dense => .dense
  | .diag => .diag
  | .sum _ => .sum

/-- The array `r` with its data type is a result of the operation on the typed matrix `a`. -/
def TReturns1 (c : Cfg K) (p : D → D → D) (z : Bool) (op : DOp1) (a : TMat K D) (r : TT K D) : Prop :=
  Returns c (fun B => op.run B a.mat) r.t ∧ Runs p z (op.call a.skel) (.num r.dt)

theorem DOp1.call_all {S : D → Prop} (op : DOp1) {a : DM D} : (op.call a).All S ↔ a.All S := by cases op <;> exact Iff.rfl
theorem DOp1.call_noZero (op : DOp1) {a : DM D} : (op.call a).NoZero ↔ a.NoZero := by cases op <;> exact Iff.rfl

/-- **C59.** Every result of `B.dense`, `B.diag` and `B.sum` of a typed matrix has a data type. -/
theorem C59_covered_array {c : Cfg K} (p : D → D → D) (op : DOp1) {a : TMat K D} {r : Tensor K} (ha : a.mat.Valid) (h : Returns c (fun B => op.run B a.mat) r) :
    ∃ d, TReturns1 c p true op a ⟨d, r⟩ := by
  obtain ⟨n, hn⟩ := h
  have H : Cov p true (ops c.code n) := ops_cov p (z := true) (fun h => by cases h) n
  have o := TMat.ok_of_wf ha.choose_spec
  cases op with
  | dense => obtain ⟨d, hd⟩ := H.dense a.lab o hn; exact ⟨d, ⟨n, hn⟩, hd⟩
  | diag => obtain ⟨d, hd⟩ := H.diag a.lab o hn; exact ⟨d, ⟨n, hn⟩, hd⟩
  | sum k => obtain ⟨d, hd⟩ := H.sum a.lab o hn; exact ⟨d, ⟨n, hn⟩, hd⟩

/-- **C59.** The same without zeros. -/
theorem C59_covered_array_nozero {c : Cfg K} (p : D → D → D) (op : DOp1) {a : TMat K D} {r : Tensor K} (ha : a.mat.Valid)
    (hn : ∀ t, c.isNumber t = true → t.get (fun _ => 0) ≠ 0) (h : ReturnsUncancelled c (fun B => op.run B a.mat) r) : ∃ d, TReturns1 c p false op a ⟨d, r⟩ := by
  have h' : Returns c (fun B => op.run B a.mat) r := h.returns (by
    cases op with
    | dense => exact fun _ _ _ h => h.dense _
    | diag => exact fun _ _ _ h => h.diag _
    | sum k => exact fun _ _ _ h => h.sumM _ _)
  obtain ⟨n, hn'⟩ := h
  have H : Cov p false (ops c.noCancel n) := ops_cov p (Cfg.noCancel_zeros hn) n
  have o := TMat.ok_of_wf ha.choose_spec
  cases op with
  | dense => obtain ⟨d, hd⟩ := H.dense a.lab o hn'; exact ⟨d, h', hd⟩
  | diag => obtain ⟨d, hd⟩ := H.diag a.lab o hn'; exact ⟨d, h', hd⟩
  | sum k => obtain ⟨d, hd⟩ := H.sum a.lab o hn'; exact ⟨d, h', hd⟩

/-- **C59.** The data type of the numeric value, the diagonal or a sum comes from the arrays of the matrix. -/
theorem C59_closed_array {c : Cfg K} {p : D → D → D} {z : Bool} {op : DOp1} {a : TMat K D} {r : TT K D} (h : TReturns1 c p z op a r) {S : D → Prop}
    (hS : ∀ x y, S x → S y → S (p x y)) (ha : ∀ d, a.HasD d → S d) : S r.dt :=
  h.2.all hS (op.call_all.2 (a.all_iff.2 ha))

/-- **C59.** Without zeros the numeric value, the diagonal and the sums have the data type of the matrix. -/
theorem C59_promoted_array [SemilatticeSup D] {c : Cfg K} {δ : DEnv K D} (hδ : δ.promote = (· ⊔ ·)) {op : DOp1} {a : TMat K D} {r : TT K D} {da : D}
    (na : a.skel.NoZero) (h : TReturns1 c δ.promote false op a r) (h1 : dtypeM δ a = .ok da) : r.dt = da := by
  rw [dtypeM_iff, hδ] at h1
  have hr := h.2
  rw [hδ] at hr
  exact eq_of_forall_ge_iff fun u => by
    have := hr.exact (op.call_noZero.2 na) u
    rw [op.call_all] at this
    rw [h1.le, ← this]
    rfl

/-! ### Zeros are not promoted -/

theorem Runs.bcast_diag {p : D → D → D} {z : Bool} {s : D} {x : DM D} (h : Runs p z (.bcast (.diag s)) x) : x = .diag s ∨ x = .dense s := by
  cases h with
  | bcast_same => exact .inl rfl
  | bcast_dense _ _ h => cases h; exact .inr rfl

theorem Runs.bcast_zero {p : D → D → D} {z : Bool} {s : D} {x : DM D} (h : Runs p z (.bcast (.zero s)) x) : x = .zero s := by
  cases h with
  | bcast_same => rfl
  | bcast_dense h => exact (h rfl).elim

/-- **C59, finding.** Adding a Zero does not promote: a Diagonal of data type `s` plus a Zero of data type `t` has data type `s`. -/
theorem C59_add_zero {p : D → D → D} {z : Bool} {s t : D} {x : DM D} (h : Runs p z (.add (.diag s) (.zero t)) x) : x = .diag s ∨ x = .dense s := by
  cases h with
  | add_am _ h1 h2 h =>
    cases h1
    cases h2
    cases h with
    | add_amZero h => exact h.bcast_diag
    | add_amAm h1 h2 h3 => cases h1; cases h2; cases h3
    | add_swap h1 h2 h3 => cases h1; cases h2; cases h3

/-- **C59, finding.** A product with a Zero has the data type of the Zero. -/
theorem C59_multiply_zero {p : D → D → D} {z : Bool} {s t : D} {x : DM D} (h : Runs p z (.mul (.diag s) (.zero t)) x) : x = .zero t := by
  cases h with
  | mul_am _ h1 h2 h =>
    cases h1
    cases h2
    cases h with
    | mul_amZero h => exact h.bcast_zero
    | mul_amAm h1 h2 h3 => cases h1; cases h2; cases h3
    | mul_swap h1 h2 h3 => cases h1; cases h2; cases h3
    | mul_diagAm_dense h1 h2 => cases h1; cases h2
    | mul_diagAm_diag h1 h2 => cases h1; cases h2

/-- **C59, finding.** So has a matrix product. -/
theorem C59_matmul_zero {p : D → D → D} {z ta tb : Bool} {s t : D} {x : DM D} (h : Runs p z (.matmul ta tb (.diag s) (.zero t)) x) : x = .zero t := by
  cases h with
  | mm_am _ h1 h2 h =>
    cases h1
    cases h2
    cases h with
    | mm_amZero => rfl
    | mm_diagAm h1 h2 => cases h1; cases h2
    | _ => simp_all [DM.kind, mmId, DM.tr', DM.tr]

/-! ### Cases meeting the hypotheses -/
namespace Ex

/-- Scalars are arrays, not numbers. -/
def cfgA : Cfg ℚ := ⟨fun _ => false, 1 / 10^10⟩

/-- A Diagonal of the smaller type. -/
def tD : TMat ℚ Bool := .diag ⟨false, v [5, 7]⟩
/-- A LowRank matrix with one factor of the larger type. -/
def tR : TMat ℚ Bool := .lr (.num ⟨false, m 2 1 [1, 2]⟩) (.num ⟨true, m 2 1 [3, 4]⟩) (.num ⟨false, m 1 1 [2]⟩)
/-- A Woodbury matrix whose Diagonal has the smaller and whose LowRank part has the larger type. -/
def tW : TMat ℚ Bool := .wb ⟨false, v [5, 7]⟩ (.num ⟨false, m 2 1 [1, 2]⟩) (.num ⟨true, m 2 1 [3, 4]⟩) (.num ⟨false, m 1 1 [2]⟩)
/-- The same with the opposite LowRank part. -/
def tW' : TMat ℚ Bool := .wb ⟨false, v [1, 2]⟩ (.num ⟨false, m 2 1 [1, 2]⟩) (.num ⟨true, m 2 1 [3, 4]⟩) (.num ⟨false, m 1 1 [-2]⟩)

theorem tD_valid : tD.mat.Valid := ⟨[], by decide, Fits.nil _⟩
theorem tR_valid : tR.mat.Valid := ⟨[], R_wf _⟩
theorem tW_valid : tW.mat.Valid := ⟨[], W_wf _⟩
theorem tW'_valid : tW'.mat.Valid :=
  ⟨[], ⟨le_refl _, Fits.nil _⟩, ⟨num_wf _ _ _ _, num_wf _ _ _ _, num_wf _ _ _ _⟩, ⟨le_refl _, le_refl _, le_refl _⟩, ⟨rfl, rfl⟩, rfl, rfl⟩

/-- A product of two matrices with a result in which no low-rank sum vanishes. -/
theorem promotes (op : DOp2) {a b : TMat ℚ Bool} (ha : a.mat.Valid) (hb : b.mat.Valid) {n : ℕ} (h : isOk (op.run (ops cfgA.noCancel n) a.mat b.mat) = true) :
    ∃ r, TReturnsNoZero cfgA denv.promote op a b r := by
  obtain ⟨r, hr⟩ := exists_of_isOk h
  obtain ⟨r', -, h'⟩ := C59_covered_nozero denv.promote op ha hb (fun _ h => by cases h) ⟨n, hr⟩
  exact ⟨r', h'⟩

end Ex

example : ∃ r, TReturnsNoZero Ex.cfgA Ex.denv.promote .add Ex.tD Ex.tR r ∧ dtypeM Ex.denv r = .ok true := by
  obtain ⟨r, h⟩ := Ex.promotes .add Ex.tD_valid Ex.tR_valid (n := 8) (by decide +kernel)
  exact ⟨r, h, C59_promoted rfl Ex.tD_valid Ex.tR_valid ⟨⟩ ⟨⟨⟩, ⟨⟩, ⟨⟩⟩ h (da := false) (db := true) rfl rfl⟩
example : ∃ r, TReturnsNoZero Ex.cfgA Ex.denv.promote (.matmul false true) Ex.tW Ex.tR r ∧ dtypeM Ex.denv r = .ok true := by
  obtain ⟨r, h⟩ := Ex.promotes (.matmul false true) Ex.tW_valid Ex.tR_valid (n := 12) (by decide +kernel)
  exact ⟨r, h, C59_promoted rfl Ex.tW_valid Ex.tR_valid ⟨⟨⟩, ⟨⟩, ⟨⟩⟩ ⟨⟨⟩, ⟨⟩, ⟨⟩⟩ h (da := true) (db := true) rfl rfl⟩
example : ∃ r, TReturnsNoZero Ex.cfgA Ex.denv.promote .mul Ex.tW Ex.tD r ∧ dtypeM Ex.denv r = .ok true := by
  obtain ⟨r, h⟩ := Ex.promotes .mul Ex.tW_valid Ex.tD_valid (n := 12) (by decide +kernel)
  exact ⟨r, h, C59_promoted rfl Ex.tW_valid Ex.tD_valid ⟨⟨⟩, ⟨⟩, ⟨⟩⟩ ⟨⟩ h (da := true) (db := false) rfl rfl⟩
example : ∃ r, TReturns1 Ex.cfgA Ex.denv.promote false .dense Ex.tW r ∧ r.dt = true := by
  obtain ⟨r, hr⟩ := Ex.exists_of_isOk (x := DOp1.dense.run (ops Ex.cfgA.noCancel 8) Ex.tW.mat) (by decide +kernel)
  obtain ⟨d, h⟩ := C59_covered_array_nozero Ex.denv.promote .dense Ex.tW_valid (fun _ h => by cases h) ⟨8, hr⟩
  exact ⟨_, h, C59_promoted_array rfl (da := true) (a := Ex.tW) ⟨⟨⟩, ⟨⟩, ⟨⟩⟩ h rfl⟩

/-- **C59, finding.** Cancellation loses a data type: a Woodbury matrix of the larger type plus one of the larger type is a Diagonal of the smaller type when their LowRank parts cancel. -/
theorem C59_cancel : ∃ r, TReturns Ex.cfgA Ex.denv.promote .add Ex.tW Ex.tW' r ∧ dtypeM Ex.denv Ex.tW = .ok true ∧ dtypeM Ex.denv Ex.tW' = .ok true ∧
    dtypeM Ex.denv r = .ok false := by
  have hk : Ex.kindOf ((ops Ex.cfgA.code 10).add Ex.tW.mat Ex.tW'.mat) = some .diag := by decide +kernel
  cases e : (ops Ex.cfgA.code 10).add Ex.tW.mat Ex.tW'.mat with
  | error x => rw [e] at hk; cases hk
  | ok r =>
    rw [e] at hk
    cases r with
    | diag t =>
      refine ⟨.diag ⟨false, t⟩, ⟨⟨10, e⟩, ?_⟩, rfl, rfl, rfl⟩
      have pd : ∀ d : Bool, Runs Ex.denv.promote true (.pad (.num d)) (.num d) := fun d => by
        have := Runs.pad_one (p := Ex.denv.promote) (z := true) (.dense_num (d := d)) (e := d) rfl
        cases d <;> exact this
      refine .add_am (.inl rfl) (.am rfl) (.am rfl) (.add_wbWb (.add_am (.inl rfl) (.am rfl) (.am rfl) .add_diagDiag)
        (.add_am (.inl rfl) (.am rfl) (.am rfl) (.add_lrLr_zero rfl (pd _) (pd _) .add_num (pd _) (pd _) .add_num (pd _) (pd _) .add_num ⟨_, _, _, rfl, rfl, rfl, rfl⟩))
        (.add_am (.inl rfl) (.am rfl) (.am rfl) (.add_amZero .bcast_same)))
    | _ => cases hk

end Verif
