/-
Data types of block matrices (C59): `B.block`, `B.block_diag`.
-/
import Verif.DFlow9

set_option linter.unusedSectionVars false
set_option linter.unusedVariables false

namespace Verif

variable {K D : Type} [Field K] [LinearOrder K]

/-! ### The rules -/

/-- `B.block(*rows)`, `ops/block.py` 13-97. -/
inductive BRuns (p : D → D → D) (z : Bool) : List (List (DM D)) → DM D → Prop
  | one {a} : BRuns p z [[a]] a  -- 28-30
  | zero {d l rows} : (∀ row ∈ (.zero d :: l) :: rows, ∀ s ∈ row, ∃ e, s = .zero e) → BRuns p z ((.zero d :: l) :: rows) (.zero d)  -- 52-62: the type of the first block
  | diag {rows ds d} : 2 ≤ rows.length → (∀ row ∈ rows, row.length = rows.length) →
      (∀ (i j : ℕ) row s, i ≠ j → rows[i]? = some row → row[j]? = some s → ∃ e, s = .zero e) →
      List.Forall₂ (fun s d => Runs p z (.diag s) (.num d)) (diagBlocks 0 rows) ds → FoldP p ds d → BRuns p z rows (.diag d)  -- 65-97
  | dense {rows : List (List (DM D))} {dss : List (List D)} {ds d} : List.Forall₂ (List.Forall₂ fun s d => Runs p z (.dense s) (.num d)) rows dss →
      List.Forall₂ (FoldP p) dss ds → FoldP p ds d → BRuns p z rows (.dense d)  -- 44-46

/-- The numeric `B.block_diag(*elements)`, `ops/block_diag.py` 16-50, with at least two elements: the zeros have the type of the first. -/
def BDNum (p : D → D → D) (ds : List D) (d : D) : Prop :=
  ∃ e l, ds = e :: l ∧ (l ≠ [] ∧ FoldP p (ds.map fun x => p (p e x) e) d ∨ l = [] ∧ ∃ k, FoldP p (List.replicate k (p (p e e) e)) d)

/-- `B.block_diag(*as)`, `ops/block_diag.py` 16-108. -/
inductive BDRuns (p : D → D → D) (z : Bool) : List (DM D) → DM D → Prop
  | num {ds d} : BDNum p ds d → BDRuns p z (ds.map .num) (.num d)  -- 16-50
  | one {a} : BDRuns p z [a] a  -- 71-73
  | zero {d l} : (∀ s ∈ l, ∃ e, s = .zero e) → BDRuns p z (.zero d :: l) (.zero d)  -- 91-99: the type of the first block
  | diag {ds d} : FoldP p ds d → BDRuns p z (ds.map .diag) (.diag d)  -- 102-108
  | dense {as ds d} : List.Forall₂ (fun s d => Runs p z (.dense s) (.num d)) as ds → BDNum p ds d → BDRuns p z as (.dense d)  -- 84-88

/-- `B.block_diag(a)` of a TiledBlocks, `ops/block_diag.py` 111-118. -/
def BDTRuns (p : D → D → D) (z : Bool) (f : D) (as : List (DM D)) (x : DM D) : Prop :=
  ∃ es ks, List.Forall₂ (fun s e => DM.DtIs p s e) as es ∧ List.Forall₂ (fun (q : DM D × D) k => QRuns p z f false (.kron (.num q.2) q.1) k) (as.zip es) ks ∧ BDRuns p z ks x

/-! ### Closure, promotion -/

variable {p : D → D → D} {z : Bool} {f : D}

/-- Everything on the right inherits a property from the left. -/
theorem forall₂_all {α β : Type} {R : α → β → Prop} {P : α → Prop} {Q : β → Prop} {l : List α} {m : List β} (h : List.Forall₂ R l m)
    (hR : ∀ a b, R a b → P a → Q b) (hl : ∀ a ∈ l, P a) : ∀ b ∈ m, Q b := by
  induction h with
  | nil => simp
  | cons h t ih =>
    simp only [List.mem_cons, forall_eq_or_imp] at hl ⊢
    exact ⟨hR _ _ h hl.1, ih hl.2⟩

theorem diagBlocks_mem {α : Type} {r : ℕ} {rows : List (List α)} {a : α} (h : a ∈ diagBlocks r rows) : ∃ row ∈ rows, a ∈ row := by
  induction rows generalizing r with
  | nil => simp [diagBlocks] at h
  | cons row rows ih =>
    simp only [diagBlocks, List.mem_append] at h
    rcases h with h | h
    · refine ⟨row, by simp, ?_⟩
      simp only [Option.mem_toList] at h
      exact List.mem_of_getElem? h
    · obtain ⟨row', h1, h2⟩ := ih h
      exact ⟨row', by simp [h1], h2⟩

theorem BDNum.all {S : D → Prop} (hp : ∀ x y, S x → S y → S (p x y)) {ds : List D} {d : D} (h : BDNum p ds d) (hd : ∀ x ∈ ds, S x) : S d := by
  obtain ⟨e, l, rfl, ⟨_, h⟩ | ⟨_, k, h⟩⟩ := h
  · refine h.all hp fun x hx => ?_
    simp only [List.mem_map] at hx
    obtain ⟨y, hy, rfl⟩ := hx
    exact hp _ _ (hp _ _ (hd e (by simp)) (hd y hy)) (hd e (by simp))
  · refine h.all hp fun x hx => ?_
    have he := hd e (by simp)
    rw [(List.mem_replicate.1 hx).2]
    exact hp _ _ (hp _ _ he he) he

theorem BRuns.all {S : D → Prop} (hp : ∀ x y, S x → S y → S (p x y)) {rows : List (List (DM D))} {x : DM D} (h : BRuns p z rows x) (ha : ∀ row ∈ rows, ∀ s ∈ row, s.All S) : x.All S := by
  cases h with
  | one => exact ha [x] (by simp) x (by simp)
  | @zero d l rows h => exact ha (.zero d :: l) (by simp) (.zero d) (by simp)
  | diag h1 h2 h3 h4 h5 =>
    refine h5.all hp (forall₂_all h4 (P := fun s => s.All S) (fun s d r hs => r.all hp hs) fun s hs => ?_)
    obtain ⟨row, h, h'⟩ := diagBlocks_mem hs
    exact ha row h s h'
  | dense h1 h2 h3 =>
    exact h3.all hp (forall₂_all h2 (P := fun l => ∀ x ∈ l, S x) (fun l d h => h.all hp)
      (forall₂_all h1 (P := fun l => ∀ s ∈ l, s.All S) (fun l m h => forall₂_all h (P := fun s => s.All S) fun s d r hs => r.all hp hs) ha))

theorem BDRuns.all {S : D → Prop} (hp : ∀ x y, S x → S y → S (p x y)) {as : List (DM D)} {x : DM D} (h : BDRuns p z as x) (ha : ∀ s ∈ as, s.All S) : x.All S := by
  cases h with
  | num h => exact h.all hp fun d hd => ha (.num d) (List.mem_map_of_mem hd)
  | one => exact ha _ (by simp)
  | @zero d l h => exact ha (.zero d) (by simp)
  | diag h => exact h.all hp fun d hd => ha (.diag d) (List.mem_map_of_mem hd)
  | dense h1 h2 => exact h2.all hp (forall₂_all h1 (P := fun s => s.All S) (fun s d r hs => r.all hp hs) ha)

theorem forall₂_zip {α β : Type} {R : α → β → Prop} {l : List α} {m : List β} (h : List.Forall₂ R l m) : ∀ q ∈ l.zip m, R q.1 q.2 := by
  induction h with
  | nil => simp
  | cons h t ih => simpa using ⟨h, by simpa using ih⟩

theorem BDTRuns.all {S : D → Prop} (hp : ∀ x y, S x → S y → S (p x y)) {as : List (DM D)} {x : DM D} (h : BDTRuns p z f as x) (ha : ∀ s ∈ as, s.All S) : x.All S := by
  obtain ⟨es, ks, h1, h2, h3⟩ := h
  refine h3.all hp (forall₂_all h2 (P := fun q => q.1.All S ∧ S q.2) (fun q k r (hq : q.1.All S ∧ S q.2) => r.all hp (fun h => by cases h) ⟨hq.2, hq.1⟩) fun q hq => ?_)
  have := ha q.1 (List.of_mem_zip hq).1
  exact ⟨this, (forall₂_zip h1 q hq).all hp this⟩

section
variable [SemilatticeSup D]

theorem forall₂_all' {α β : Type} {R : α → β → Prop} {P : α → Prop} {Q : β → Prop} {l : List α} {m : List β} (h : List.Forall₂ R l m)
    (hR : ∀ a b, a ∈ l → R a b → Q b → P a) (hm : ∀ b ∈ m, Q b) : ∀ a ∈ l, P a := by
  induction h with
  | nil => simp
  | @cons a b l m h t ih =>
    simp only [List.mem_cons, forall_eq_or_imp] at hm ⊢
    exact ⟨hR _ _ (by simp) h hm.1, ih (fun a b ha => hR a b (by simp [ha])) hm.2⟩

theorem BDNum.back (u : D) {ds : List D} {d : D} (h : BDNum (· ⊔ ·) ds d) (hd : d ≤ u) : ∀ x ∈ ds, x ≤ u := by
  obtain ⟨e, l, rfl, ⟨_, h⟩ | ⟨rfl, k, h⟩⟩ := h
  · intro x hx
    have := h.le.1 hd (e ⊔ x ⊔ e) (List.mem_map.2 ⟨x, hx, rfl⟩)
    exact le_trans (le_trans le_sup_right le_sup_left) this
  · intro x hx
    cases k with
    | zero => exact h.elim
    | succ k =>
      have := h.le.1 hd (e ⊔ e ⊔ e) (by simp)
      simpa [List.mem_singleton.1 hx] using this

theorem BRuns.back (u : D) {rows : List (List (DM D))} {x : DM D} (h : BRuns (· ⊔ ·) false rows x) (ha : ∀ row ∈ rows, ∀ s ∈ row, s.NoZero) (hx : x.All (· ≤ u)) :
    ∀ row ∈ rows, ∀ s ∈ row, s.All (· ≤ u) := by
  cases h with
  | one => simpa using hx
  | @zero d l rows h => exact (ha (.zero d :: l) (by simp) (.zero d) (by simp)).elim
  | diag h1 h2 h3 h4 h5 =>
    have l0 : (rows[0]'(by omega)).length = rows.length := h2 _ (List.getElem_mem _)
    obtain ⟨e, he⟩ := h3 0 1 _ ((rows[0]'(by omega))[1]'(by omega)) (by simp) (List.getElem?_eq_getElem _) (List.getElem?_eq_getElem _)
    have := ha _ (List.getElem_mem (by omega : 0 < rows.length)) _ (List.getElem_mem (by omega : 1 < (rows[0]'(by omega)).length))
    rw [he] at this
    exact this.elim
  | dense h1 h2 h3 =>
    refine forall₂_all' h1 (Q := fun l => ∀ x ∈ l, x ≤ u) (fun l m hl h hm => ?_) (forall₂_all' h2 (Q := (· ≤ u)) (fun l d _ h => h.le.1) (h3.le.1 hx))
    exact forall₂_all' h (Q := (· ≤ u)) (fun s d hs r hd => r.back u (ha l hl s hs) hd) hm

theorem BDRuns.back (u : D) {as : List (DM D)} {x : DM D} (h : BDRuns (· ⊔ ·) false as x) (ha : ∀ s ∈ as, s.NoZero) (hx : x.All (· ≤ u)) : ∀ s ∈ as, s.All (· ≤ u) := by
  cases h with
  | num h => simpa [DM.All] using h.back u hx
  | one => simpa using hx
  | @zero d l h => exact (ha (.zero d) (by simp)).elim
  | diag h => simpa [DM.All] using h.le.1 hx
  | dense h1 h2 => exact forall₂_all' h1 (Q := (· ≤ u)) (fun s d hs r hd => r.back u (ha s hs) hd) (h2.back u hx)

theorem QRuns.kron_noZero {a b x : DM D} (h : QRuns (· ⊔ ·) false f false (.kron a b) x) (ha : a.NoZero) (hb : b.NoZero) : x.NoZero := by
  cases h with
  | kron_num => trivial
  | kron_amZero h => exact (h.noZero hb).elim
  | kron_zeroAm h => exact (h.noZero ha).elim
  | kron_const h1 h2 => trivial
  | kron_am h1 h2 => exact ⟨h1.noZero ha, h2.noZero hb⟩

theorem BDTRuns.back (u : D) {as : List (DM D)} {x : DM D} (h : BDTRuns (· ⊔ ·) false f as x) (ha : ∀ s ∈ as, s.NoZero) (hx : x.All (· ≤ u)) : ∀ s ∈ as, s.All (· ≤ u) := by
  obtain ⟨es, ks, h1, h2, h3⟩ := h
  have hz : ∀ q ∈ as.zip es, q.1.NoZero := fun q hq => ha q.1 (List.of_mem_zip hq).1
  have hk := h3.back u (forall₂_all h2 (P := fun q => q.1.NoZero) (fun q k r hq => r.kron_noZero trivial hq) hz) hx
  have hq := forall₂_all' h2 (P := fun q => q.1.All (· ≤ u)) (fun q k hq r hk => (r.back u ⟨trivial, hz q hq⟩ hk).2) hk
  intro s hs
  obtain ⟨i, hi, rfl⟩ := List.getElem_of_mem hs
  have hl := h1.length_eq
  exact hq (as[i], es[i]'(by omega)) (by rw [List.mem_iff_getElem]; exact ⟨i, by simp; omega, by simp⟩)

end

/-! ### Coverage -/

/-- Results of a function on labelled matrices. -/
theorem mapM_lab {β γ : Type} {g : Mat K → E β} {P : DM D → γ → Prop} {as : List (Mat K)} {ss : List (DM D)} {r : List β} (hl : List.Forall₂ Lab as ss) (ho : ∀ s ∈ ss, s.Ok)
    (hg : ∀ a s y, Lab a s → s.Ok → g a = .ok y → ∃ d, P s d) (h : as.mapM g = .ok r) : ∃ ds, List.Forall₂ P ss ds := by
  induction hl generalizing r with
  | nil => exact ⟨[], .nil⟩
  | cons l t ih =>
    simp only [List.mapM_cons, bind_ok_iff, pure_eq_ok] at h
    obtain ⟨y, hy, r', hr, rfl⟩ := h
    simp only [List.mem_cons, forall_eq_or_imp] at ho
    obtain ⟨d, hd⟩ := hg _ _ _ l ho.1 hy
    obtain ⟨ds, h⟩ := ih ho.2 hr
    exact ⟨d :: ds, .cons hd h⟩

/-- Broadcasting leaves the labels alone. -/
theorem mapM_bcast_lab {S : Shp} {as r : List (Mat K)} {ss : List (DM D)} (hl : List.Forall₂ Lab as ss) (h : as.mapM (broadcastBatchTo S) = .ok r) : List.Forall₂ Lab r ss := by
  induction hl generalizing r with
  | nil => simp [pure_eq_ok] at h; subst h; exact .nil
  | cons l t ih =>
    simp only [List.mapM_cons, bind_ok_iff, pure_eq_ok] at h
    obtain ⟨y, hy, r', hr, rfl⟩ := h
    exact .cons (broadcastBatchTo_lab l hy) (ih hr)

theorem alignBatchRows_lab {rows r : List (List (Mat K))} {ss : List (List (DM D))} (hl : List.Forall₂ (List.Forall₂ Lab) rows ss) (h : alignBatchRows rows = .ok r) :
    List.Forall₂ (List.Forall₂ Lab) r ss := by
  simp only [alignBatchRows, bind_ok_iff] at h
  obtain ⟨S, hS, h⟩ := h
  clear hS
  induction hl generalizing r with
  | nil => simp [pure_eq_ok] at h; subst h; exact .nil
  | cons l t ih =>
    simp only [List.mapM_cons, bind_ok_iff, pure_eq_ok] at h
    obtain ⟨y, hy, r', hr, rfl⟩ := h
    exact .cons (mapM_bcast_lab l hy) (ih hr)

theorem foldP_of {l : List D} (h : l ≠ []) : ∃ d, FoldP p l d := by
  cases l with
  | nil => exact absurd rfl h
  | cons x l => exact ⟨_, rfl⟩

theorem nConcat_ne_nil {k : Int} {ts : List (Tensor K)} {t : Tensor K} (h : nConcat k ts = .ok t) : ts ≠ [] := by
  rintro rfl
  cases h

theorem forall₂_ne_nil {α β : Type} {R : α → β → Prop} {l : List α} {m : List β} (h : List.Forall₂ R l m) : l ≠ [] ↔ m ≠ [] := by
  cases h <;> simp

theorem Lab.isZero {a : Mat K} {s : DM D} (l : Lab a s) (h : isZeroM a = true) : ∃ d, s = .zero d := by
  cases l <;> simp [isZeroM] at h
  exact ⟨_, rfl⟩

theorem forall₂_diagBlocks {α β : Type} {R : α → β → Prop} {r : ℕ} {l : List (List α)} {m : List (List β)} (h : List.Forall₂ (List.Forall₂ R) l m) :
    List.Forall₂ R (diagBlocks r l) (diagBlocks r m) := by
  induction h generalizing r with
  | nil => exact .nil
  | cons h t ih =>
    refine List.rel_append ?_ ih
    clear t ih
    induction h generalizing r with
    | nil => simp
    | cons h t ih =>
      cases r with
      | zero => simpa using h
      | succ r => simpa using ih

/-- Every `B.block` is followed by the rules. -/
theorem Cov.block {B : Ops K} (H : Cov p z B) {rows : List (List (Mat K))} {ss : List (List (DM D))} {r : Mat K} (hl : List.Forall₂ (List.Forall₂ Lab) rows ss)
    (ho : ∀ row ∈ ss, ∀ s ∈ row, s.Ok) (h : blockM B rows = .ok r) : ∃ x, Lab r x ∧ BRuns p z ss x := by
  unfold blockM at h
  split at h
  · cases h
  · cases h
    cases hl with
    | cons h1 t => cases t; cases h1 with
      | cons h1 t => cases t; exact ⟨_, h1, .one⟩
  · rename_i rows n1 n2
    split_ifs at h with hz
    · simp only [blockZero, bind_ok_iff, mkZero] at h
      obtain ⟨S, _, hs, hh, ws, _, h⟩ := h
      cases hl with
      | nil => exact absurd rfl n1
      | @cons row s rows ss l t =>
        cases l with
        | nil =>
          simp only [List.mapM_cons, bind_ok_iff] at hh
          obtain ⟨_, h, _⟩ := hh
          cases h
        | @cons a s as sl l t' =>
          have hz0 : ∀ row ∈ (a :: as) :: rows, ∀ a ∈ row, isZeroM a = true := by simpa [List.all_eq_true] using hz
          obtain ⟨d, rfl⟩ := l.isZero (hz0 (a :: as) (by simp) a (by simp))
          cases h
          refine ⟨.zero d, .zero, .zero ?_⟩
          exact forall₂_all (List.Forall₂.cons (List.Forall₂.cons l t') t) (P := fun row => ∀ a ∈ row, isZeroM a = true)
            (fun row s h hr => forall₂_all h (P := fun a => isZeroM a = true) (fun a s l h => l.isZero h) hr) hz0
    · simp only [bind_ok_iff] at h
      obtain ⟨rows', hr, o, ho', h⟩ := h
      have hl' := alignBatchRows_lab hl hr
      cases o with
      | some x =>
        cases h
        simp only [blockDiagonal] at ho'
        split_ifs at ho' with hsq
        · cases ho'
        · simp only [bind_ok_iff] at ho'
          obtain ⟨b, hb, ho'⟩ := ho'
          cases b with
          | false => cases ho'
          | true =>
            simp only [Bool.not_true, Bool.false_eq_true, if_false, bind_ok_iff, pure_eq_ok] at ho'
            obtain ⟨S, _, bs, hbs, vs, hvs, y, hy, t, ht, e⟩ := ho'
            cases e
            simp only [mkDiag, bind_ok_iff, pure_eq_ok] at ht
            obtain ⟨_, _, rfl⟩ := ht
            have hsq' : ∀ row ∈ rows', row.length = rows'.length := by simpa [List.all_eq_true] using hsq
            have hss : ∀ row ∈ ss, row.length = ss.length := by
              rw [← hl'.length_eq]
              exact forall₂_all hl' (P := fun row => row.length = rows'.length) (fun row s h e => by rw [← h.length_eq, e]) hsq'
            have hcell := allE_true hb
            have hoff : ∀ (i j : ℕ) row s, i ≠ j → ss[i]? = some row → row[j]? = some s → ∃ e, s = .zero e := by
              intro i j row s hij h1 h2
              obtain ⟨row', h1', l⟩ := forall₂_getElem?' hl' h1
              obtain ⟨a, h2', l⟩ := forall₂_getElem?' l h2
              have := hcell (blockCell i j a) (by
                simp only [List.mem_flatMap, List.mem_map]
                exact ⟨(row', i), List.mem_zipIdx_iff_getElem?.2 h1', (a, j), List.mem_zipIdx_iff_getElem?.2 h2', rfl⟩)
              simp only [blockCell, bind_ok_iff, pure_eq_ok, hij, if_false] at this
              obtain ⟨_, _, this⟩ := this
              exact l.isZero this
            have h2 : 2 ≤ ss.length := by
              clear hr
              cases hl with
              | nil => exact absurd rfl n1
              | cons l t => cases t with
                | nil =>
                  have := hss _ List.mem_cons_self
                  rw [← l.length_eq] at this
                  obtain ⟨a, rfl⟩ := List.length_eq_one_iff.1 this
                  exact absurd rfl (n2 a)
                | cons _ _ => simp
            obtain ⟨ds, hds⟩ := mapM_lab (mapM_bcast_lab (forall₂_diagBlocks hl') hbs) (fun s hs => by
              obtain ⟨row, h1, h2⟩ := diagBlocks_mem hs
              exact ho row h1 s h2) (fun a s y l o h => H.diag l o h) hvs
            have : ds ≠ [] := by
              rw [← forall₂_ne_nil hds, ← forall₂_ne_nil (forall₂_diagBlocks hl'), forall₂_ne_nil (mapM_ok hbs), forall₂_ne_nil (mapM_ok hvs)]
              exact nConcat_ne_nil hy
            obtain ⟨d, hd⟩ := foldP_of (p := p) this
            exact ⟨.diag d, .diag, .diag h2 hss hoff hds hd⟩
      | none =>
        simp only [bind_ok_iff, pure_eq_ok] at h
        obtain ⟨rows'', hr', dss, hd, t, ht, rfl⟩ := h
        have hl'' := alignBatchRows_lab hl hr'
        have rowLab : ∀ {rows : List (List (Mat K))} {ss : List (List (DM D))} {dss : List (List (Tensor K))}, List.Forall₂ (List.Forall₂ Lab) rows ss → (∀ row ∈ ss, ∀ s ∈ row, s.Ok) →
            rows.mapM (fun row => row.mapM B.dense) = .ok dss →
            ∃ qss : List (List D), List.Forall₂ (List.Forall₂ fun s d => Runs p z (.dense s) (.num d)) ss qss ∧ List.Forall₂ (List.Forall₂ fun _ _ => True) dss qss := by
          intro rows ss dss hl ho hd
          induction hl generalizing dss with
          | nil => simp [pure_eq_ok] at hd; subst hd; exact ⟨[], .nil, .nil⟩
          | cons l t ih =>
            simp only [List.mapM_cons, bind_ok_iff, pure_eq_ok] at hd
            obtain ⟨ds, h1, dss', h2, rfl⟩ := hd
            simp only [List.mem_cons, forall_eq_or_imp] at ho
            obtain ⟨qs, hq⟩ := mapM_lab l ho.1 (fun a s y l o h => H.dense l o h) h1
            obtain ⟨qss, g1, g2⟩ := ih ho.2 h2
            refine ⟨qs :: qss, .cons hq g1, .cons ?_ g2⟩
            rw [List.forall₂_iff_zip]
            refine ⟨?_, fun _ => trivial⟩
            rw [← (mapM_ok h1).length_eq, l.length_eq, hq.length_eq]
        obtain ⟨qss, g1, g2⟩ := rowLab hl'' ho hd
        simp only [nConcat2d, bind_ok_iff] at ht
        obtain ⟨ts, hts, ht⟩ := ht
        have hq : ∃ qs, List.Forall₂ (FoldP p) qss qs ∧ qs.length = ts.length := by
          have := mapM_ok hts
          clear hts ht hd g1
          induction g2 generalizing ts with
          | nil => cases this; exact ⟨[], .nil, rfl⟩
          | cons h t ih =>
            cases this with
            | cons c t' =>
              obtain ⟨d, hd⟩ := foldP_of (p := p) ((forall₂_ne_nil h).1 (nConcat_ne_nil c))
              obtain ⟨qs, h1, h2⟩ := ih _ t'
              exact ⟨d :: qs, .cons hd h1, by simp [h2]⟩
        obtain ⟨qs, h1, h2⟩ := hq
        have : qs ≠ [] := by
          have := nConcat_ne_nil ht
          rw [← List.length_pos_iff] at this ⊢
          omega
        obtain ⟨d, hd⟩ := foldP_of (p := p) this
        exact ⟨.dense d, .dense, .dense g1 h1 hd⟩

theorem bdRows_length {bt : Shp} {n k : ℕ} {l : List (Tensor K × (ℕ × ℕ))} {r : List (Tensor K)} (h : bdRows bt n k l = .ok r) : r.length = l.length := by
  induction l generalizing k r with
  | nil => cases h; rfl
  | cons q l ih =>
    simp only [bdRows, bind_ok_iff, pure_eq_ok] at h
    obtain ⟨row, _, rest, h, rfl⟩ := h
    simp [ih h]

/-- The numeric `B.block_diag` is followed by the rules. -/
theorem blockDiagNum_bd {ts : List (Tensor K)} {t : Tensor K} (p : D → D → D) {ds : List D} (hl : ds.length = ts.length) (h : blockDiagNum ts = .ok t) : ∃ d, BDNum p ds d := by
  simp only [blockDiagNum, bind_ok_iff] at h
  obtain ⟨as, ha, sh, hsh, bt, hbt, rows, hr, h⟩ := h
  have h1 : as.length = ts.length := by
    simp only [alignBatchL, bind_ok_iff] at ha
    obtain ⟨S, _, ha⟩ := ha
    rw [← (mapM_ok ha).length_eq, List.length_map]
  have h2 := nConcat_ne_nil h
  have h3 := bdRows_length hr
  have h4 := (mapM_ok hsh).length_eq
  rw [List.length_zip, ← h4, min_self] at h3
  cases ds with
  | nil =>
    have : as = [] := List.length_eq_zero_iff.1 (by rw [h1, ← hl]; rfl)
    subst this
    cases hbt
  | cons e l =>
    by_cases hn : l = []
    · subst hn
      obtain ⟨k, hk⟩ : ∃ k, rows.length = k := ⟨_, rfl⟩
      obtain ⟨d, hd⟩ := foldP_of (p := p) (l := List.replicate k (p (p e e) e)) (by
        rw [← List.length_pos_iff] at h2 ⊢
        simpa [hk] using h2)
      exact ⟨d, e, [], rfl, Or.inr ⟨rfl, k, hd⟩⟩
    · exact ⟨_, e, l, rfl, Or.inl ⟨hn, rfl⟩⟩

theorem Lab.numL {as : List (Mat K)} {ss : List (DM D)} (hl : List.Forall₂ Lab as ss) (h : ∀ a ∈ as, a.isAM = false) : ∃ ds : List D, ss = ds.map .num := by
  induction hl with
  | nil => exact ⟨[], rfl⟩
  | cons l t ih =>
    simp only [List.mem_cons, forall_eq_or_imp] at h
    obtain ⟨ds, rfl⟩ := ih h.2
    cases l <;> simp [Mat.isAM] at h
    exact ⟨_ :: ds, rfl⟩

theorem Lab.diagL {as : List (Mat K)} {ss : List (DM D)} (hl : List.Forall₂ Lab as ss) (h : ∀ a ∈ as, isDiagM a = true) : ∃ ds : List D, ss = ds.map .diag := by
  induction hl with
  | nil => exact ⟨[], rfl⟩
  | cons l t ih =>
    simp only [List.mem_cons, forall_eq_or_imp] at h
    obtain ⟨ds, rfl⟩ := ih h.2
    cases l <;> simp [isDiagM] at h
    exact ⟨_ :: ds, rfl⟩

/-- Every `B.block_diag` of several operands is followed by the rules. -/
theorem Cov.blockDiagList {B : Ops K} (H : Cov p z B) {as : List (Mat K)} {ss : List (DM D)} {r : Mat K} (hl : List.Forall₂ Lab as ss)
    (ho : ∀ s ∈ ss, s.Ok) (h : blockDiagList B as = .ok r) : ∃ x, Lab r x ∧ BDRuns p z ss x := by
  unfold Verif.blockDiagList at h
  split at h
  · cases h
  · rename_i as n1
    split_ifs at h with hn
    · simp only [bind_ok_iff, pure_eq_ok] at h
      obtain ⟨t, ht, rfl⟩ := h
      obtain ⟨ds, rfl⟩ := Lab.numL hl (by simpa [List.all_eq_true] using hn)
      obtain ⟨d, hd⟩ := blockDiagNum_bd p (ds := ds) (by rw [List.length_map, hl.length_eq, List.length_map]) ht
      exact ⟨.num d, .num, .num hd⟩
    · unfold blockDiagAM at h
      split at h
      · cases h
        cases hl with
        | cons l t => cases t; exact ⟨_, l, .one⟩
      · split_ifs at h with hz hd
        · simp only [bind_ok_iff, mkZero] at h
          obtain ⟨S, _, hs, _, ws, _, h⟩ := h
          cases h
          cases hl with
          | nil => exact absurd rfl n1
          | cons l t =>
            simp only [List.all_cons, Bool.and_eq_true, List.all_eq_true] at hz
            obtain ⟨d, rfl⟩ := l.isZero hz.1
            exact ⟨.zero d, .zero, .zero (forall₂_all t (P := fun a => isZeroM a = true) (fun a s l h => l.isZero h) hz.2)⟩
        · simp only [bind_ok_iff, mkDiag, pure_eq_ok] at h
          obtain ⟨bs, hbs, vs, hvs, t, ht, _, _, rfl⟩ := h
          obtain ⟨ds, rfl⟩ := Lab.diagL hl (by simpa [List.all_eq_true] using hd)
          obtain ⟨d, hd⟩ := foldP_of (p := p) (l := ds) (by
            have := hl.length_eq
            rw [← List.length_pos_iff]
            have := List.length_pos_iff.2 n1
            simp at *
            omega)
          exact ⟨.diag d, .diag, .diag hd⟩
        · simp only [bind_ok_iff, pure_eq_ok] at h
          obtain ⟨ts, hts, t, ht, rfl⟩ := h
          obtain ⟨ds, hds⟩ := mapM_lab hl ho (fun a s y l o h => H.dense l o h) hts
          obtain ⟨d, hd⟩ := blockDiagNum_bd p (ds := ds) (by rw [← hds.length_eq, ← hl.length_eq, (mapM_ok hts).length_eq]) ht
          exact ⟨.dense d, .dense, .dense hds hd⟩

theorem forall₂_ofFn {α β : Type} {R : α → β → Prop} {n : ℕ} {f : Fin n → α} {g : Fin n → β} (h : ∀ i, R (f i) (g i)) : List.Forall₂ R (List.ofFn f) (List.ofFn g) := by
  rw [List.forall₂_iff_get]
  exact ⟨by simp, fun i h1 h2 => by simpa using h _⟩

/-- `B.block_diag(*as)` with the case of one TiledBlocks, `ops/block_diag.py` 111-118. -/
def BDAll (p : D → D → D) (z : Bool) (f : D) (as : List (DM D)) (x : DM D) : Prop :=
  match as with
  | [.tiled n blk] => BDTRuns p z f (List.ofFn blk) x
  | as => BDRuns p z as x

/-- Every `B.block_diag` is followed by the rules. -/
theorem Cov.blockDiag {B : Ops K} (H : Cov p z B) (f : D) {env : Env K} (hz : env.Numbers z) {as : List (Mat K)} {ss : List (DM D)} {r : Mat K} (hl : List.Forall₂ Lab as ss)
    (ho : ∀ s ∈ ss, s.Ok) (h : blockDiagM env B as = .ok r) : ∃ x, Lab r x ∧ BDAll p z f ss x := by
  unfold blockDiagM at h
  split at h
  · cases hl with
    | cons l t => cases t; cases l with
      | tiled hb =>
        rename_i n blk reps axis blk'
        simp only [bind_ok_iff] at h
        obtain ⟨ks, hk, h⟩ := h
        have hk := seqFin_ok.1 hk
        have o := ho (.tiled n blk') (by simp)
        choose es hes using fun i => (o.2 i).dt p
        choose xs hx using fun i => kronM_lab (p := p) (c := false) (f := f) hz (.num (d := es i)) (hb i) (hk i)
        obtain ⟨x, lx, rx⟩ := H.blockDiagList (forall₂_ofFn fun i => (hx i).1) (by
          intro s hs
          obtain ⟨i, rfl⟩ := (List.mem_ofFn' _ _).1 hs
          exact (hx i).2.ok ⟨trivial, o.2 i⟩) h
        refine ⟨x, lx, List.ofFn es, List.ofFn xs, forall₂_ofFn hes, ?_, rx⟩
        rw [List.forall₂_iff_get]
        refine ⟨by simp, fun i h1 h2 => ?_⟩
        simpa using (hx ⟨i, by simpa using h2⟩).2
  · rename_i hn
    obtain ⟨x, lx, rx⟩ := H.blockDiagList hl ho h
    refine ⟨x, lx, ?_⟩
    unfold BDAll
    split
    · cases hl with
      | cons l t => cases t; cases l; exact absurd rfl (hn _ _ _ _)
    · exact rx

theorem BDAll.all {S : D → Prop} (hp : ∀ x y, S x → S y → S (p x y)) {as : List (DM D)} {x : DM D} (h : BDAll p z f as x) (ha : ∀ s ∈ as, s.All S) : x.All S := by
  unfold BDAll at h
  split at h
  · refine BDTRuns.all hp h fun s hs => ?_
    obtain ⟨i, rfl⟩ := (List.mem_ofFn' _ _).1 hs
    exact ha (.tiled _ _) (by simp) i
  · exact BDRuns.all hp h ha

theorem BDAll.back [SemilatticeSup D] (u : D) {as : List (DM D)} {x : DM D} (h : BDAll (· ⊔ ·) false f as x) (ha : ∀ s ∈ as, s.NoZero) (hx : x.All (· ≤ u)) : ∀ s ∈ as, s.All (· ≤ u) := by
  unfold BDAll at h
  split at h
  · rename_i n blk
    have := BDTRuns.back u h (fun s hs => by
      obtain ⟨i, rfl⟩ := (List.mem_ofFn' _ _).1 hs
      exact ha (.tiled _ _) (by simp) i) hx
    intro s hs
    rw [List.mem_singleton.1 hs]
    exact fun i => this (blk i) (by simp [List.mem_ofFn'])
  · exact BDRuns.back u h ha hx

theorem BRuns.ok {rows : List (List (DM D))} {x : DM D} (h : BRuns p z rows x) (ha : ∀ row ∈ rows, ∀ s ∈ row, s.Ok) : x.Ok := by
  cases h with
  | one => exact ha [x] (by simp) x (by simp)
  | _ => trivial

theorem BDRuns.ok {as : List (DM D)} {x : DM D} (h : BDRuns p z as x) (ha : ∀ s ∈ as, s.Ok) : x.Ok := by
  cases h with
  | one => exact ha _ (by simp)
  | _ => trivial

theorem BDAll.ok {as : List (DM D)} {x : DM D} (h : BDAll p z f as x) (ha : ∀ s ∈ as, s.Ok) : x.Ok := by
  unfold BDAll at h
  split at h
  · rename_i n blk
    have o := ha (.tiled n blk) (by simp)
    obtain ⟨es, ks, h1, h2, h3⟩ := h
    refine h3.ok (forall₂_all h2 (P := fun q => q.1.Ok) (fun q k r hq => r.ok ⟨trivial, hq⟩) fun q hq => ?_)
    obtain ⟨i, e⟩ := (List.mem_ofFn' _ _).1 (List.of_mem_zip hq).1
    rw [← e]
    exact o.2 i
  · exact BDRuns.ok h ha

/-! ### Typed matrices -/

/-- The typed matrix `r` is a result of `B.block(*rows)`; with `z = false` in a run without zeros. -/
def TBlock (c : Cfg K) (p : D → D → D) (z : Bool) (rows : List (List (TMat K D))) (r : TMat K D) : Prop :=
  Returns c (fun B => blockM B (rows.map fun row => row.map TMat.mat)) r.mat ∧ BRuns p z (rows.map fun row => row.map TMat.skel) r.skel

/-- The typed matrix `r` is a result of `B.block_diag(*as)`; with `z = false` in a run without zeros. -/
def TBlockDiag (c : Cfg K) (p : D → D → D) (z : Bool) (f : D) (as : List (TMat K D)) (r : TMat K D) : Prop :=
  Returns c (fun B => blockDiagM c.code B (as.map TMat.mat)) r.mat ∧ BDAll p z f (as.map TMat.skel) r.skel

theorem labL (as : List (TMat K D)) : List.Forall₂ Lab (as.map TMat.mat) (as.map TMat.skel) := by
  induction as with
  | nil => exact .nil
  | cons a as ih => exact .cons a.lab ih

theorem labR (rows : List (List (TMat K D))) : List.Forall₂ (List.Forall₂ Lab) (rows.map fun row => row.map TMat.mat) (rows.map fun row => row.map TMat.skel) := by
  induction rows with
  | nil => exact .nil
  | cons a as ih => exact .cons (labL a) ih

theorem okL {as : List (TMat K D)} (h : ∀ a ∈ as, a.mat.Valid) : ∀ s ∈ as.map TMat.skel, s.Ok := by
  simp only [List.mem_map, forall_exists_index, and_imp, forall_apply_eq_imp_iff₂]
  exact fun a ha => TMat.ok_of_wf (h a ha).choose_spec

theorem okR {rows : List (List (TMat K D))} (h : ∀ row ∈ rows, ∀ a ∈ row, a.mat.Valid) : ∀ row ∈ rows.map fun row => row.map TMat.skel, ∀ s ∈ row, s.Ok := by
  simp only [List.mem_map, forall_exists_index, and_imp, forall_apply_eq_imp_iff₂]
  exact fun row hr a ha => TMat.ok_of_wf (h row hr a ha).choose_spec

/-- **C59.** Every block matrix of typed matrices is a typed matrix. -/
theorem C59_block_covered {c : Cfg K} (p : D → D → D) {rows : List (List (TMat K D))} {r : Mat K} (hv : ∀ row ∈ rows, ∀ a ∈ row, a.mat.Valid)
    (h : Returns c (fun B => blockM B (rows.map fun row => row.map TMat.mat)) r) : ∃ r' : TMat K D, r'.mat = r ∧ TBlock c p true rows r' := by
  obtain ⟨n, hn⟩ := h
  obtain ⟨x, l, run⟩ := Cov.block (ops_cov p (z := true) (fun h => by cases h) n) (labR rows) (okR hv) hn
  obtain ⟨t, rfl, rfl⟩ := l.typed
  exact ⟨t, rfl, ⟨n, hn⟩, run⟩

/-- **C59.** The same without zeros: no exact zero is a Python number and no sum of low-rank matrices vanishes in the run. -/
theorem C59_block_covered_nozero {c : Cfg K} (p : D → D → D) {rows : List (List (TMat K D))} {r : Mat K} (hv : ∀ row ∈ rows, ∀ a ∈ row, a.mat.Valid)
    (hn : ∀ t, c.isNumber t = true → t.get (fun _ => 0) ≠ 0) (h : ReturnsUncancelled c (fun B => blockM B (rows.map fun row => row.map TMat.mat)) r) :
    ∃ r' : TMat K D, r'.mat = r ∧ TBlock c p false rows r' := by
  have h' := h.returns (Calls.block _)
  obtain ⟨n, hr⟩ := h
  obtain ⟨x, l, run⟩ := Cov.block (ops_cov p (Cfg.noCancel_zeros hn) n) (labR rows) (okR hv) hr
  obtain ⟨t, rfl, rfl⟩ := l.typed
  exact ⟨t, rfl, h', run⟩

/-- **C59.** The data types of a block matrix come from the blocks. -/
theorem C59_block_closed {c : Cfg K} {p : D → D → D} {z : Bool} {rows : List (List (TMat K D))} {r : TMat K D} (h : TBlock c p z rows r) {S : D → Prop}
    (hS : ∀ x y, S x → S y → S (p x y)) (ha : ∀ row ∈ rows, ∀ a ∈ row, ∀ d, a.HasD d → S d) (d : D) (hd : r.HasD d) : S d := by
  refine r.all_iff.1 (h.2.all hS ?_) d hd
  simp only [List.mem_map, forall_exists_index, and_imp, forall_apply_eq_imp_iff₂]
  exact fun row hr a hm => a.all_iff.2 (ha row hr a hm)

/-- **C59.** Without zeros the data type of a block matrix is the promotion of all data types of the blocks. -/
theorem C59_block_promoted [SemilatticeSup D] {c : Cfg K} {δ : DEnv K D} (hδ : δ.promote = (· ⊔ ·)) {rows : List (List (TMat K D))} {r : TMat K D}
    (hv : ∀ row ∈ rows, ∀ a ∈ row, a.mat.Valid) (hz : ∀ row ∈ rows, ∀ a ∈ row, a.skel.NoZero) (h : TBlock c δ.promote false rows r) :
    ∃ d, dtypeM δ r = .ok d ∧ IsLUB {x | ∃ row ∈ rows, ∃ a ∈ row, a.HasD x} d := by
  obtain ⟨e, he⟩ := (h.2.ok (okR hv)).dt δ.promote
  refine ⟨e, (dtypeM_iff r).2 he, ?_⟩
  have hr := h.2
  rw [hδ] at he hr
  constructor
  · rintro x ⟨row, hrow, a, ha, hx⟩
    have := hr.back e (by
      simp only [List.mem_map, forall_exists_index, and_imp, forall_apply_eq_imp_iff₂]
      exact hz) (he.le.1 (le_refl e)) (row.map TMat.skel) (List.mem_map_of_mem hrow) a.skel (List.mem_map_of_mem ha)
    exact a.all_iff.1 this x hx
  · intro u hu
    refine he.le.2 (hr.all (S := (· ≤ u)) (fun _ _ => sup_le) ?_)
    simp only [List.mem_map, forall_exists_index, and_imp, forall_apply_eq_imp_iff₂]
    exact fun row hr a hm => a.all_iff.2 fun x hx => hu ⟨row, hr, a, hm, hx⟩

/-- **C59.** Every block-diagonal matrix of typed matrices is a typed matrix. -/
theorem C59_block_diag_covered {c : Cfg K} (p : D → D → D) (f : D) {as : List (TMat K D)} {r : Mat K} (hv : ∀ a ∈ as, a.mat.Valid)
    (h : Returns c (fun B => blockDiagM c.code B (as.map TMat.mat)) r) : ∃ r' : TMat K D, r'.mat = r ∧ TBlockDiag c p true f as r' := by
  obtain ⟨n, hn⟩ := h
  obtain ⟨x, l, run⟩ := Cov.blockDiag (ops_cov p (z := true) (fun h => by cases h) n) f (fun h => by cases h) (labL as) (okL hv) hn
  obtain ⟨t, rfl, rfl⟩ := l.typed
  exact ⟨t, rfl, ⟨n, hn⟩, run⟩

/-- **C59.** The same without zeros. -/
theorem C59_block_diag_covered_nozero {c : Cfg K} (p : D → D → D) (f : D) {as : List (TMat K D)} {r : Mat K} (hv : ∀ a ∈ as, a.mat.Valid)
    (hn : ∀ t, c.isNumber t = true → t.get (fun _ => 0) ≠ 0) (h : ReturnsUncancelled c (fun B => blockDiagM c.code B (as.map TMat.mat)) r) :
    ∃ r' : TMat K D, r'.mat = r ∧ TBlockDiag c p false f as r' := by
  have h' := h.returns (Calls.blockDiag _ _)
  obtain ⟨n, hr⟩ := h
  obtain ⟨x, l, run⟩ := Cov.blockDiag (ops_cov p (Cfg.noCancel_zeros hn) n) f (env := c.code) (fun _ => hn) (labL as) (okL hv) hr
  obtain ⟨t, rfl, rfl⟩ := l.typed
  exact ⟨t, rfl, h', run⟩

/-- **C59.** The data types of a block-diagonal matrix come from the blocks. -/
theorem C59_block_diag_closed {c : Cfg K} {p : D → D → D} {z : Bool} {f : D} {as : List (TMat K D)} {r : TMat K D} (h : TBlockDiag c p z f as r) {S : D → Prop}
    (hS : ∀ x y, S x → S y → S (p x y)) (ha : ∀ a ∈ as, ∀ d, a.HasD d → S d) (d : D) (hd : r.HasD d) : S d := by
  refine r.all_iff.1 (h.2.all hS ?_) d hd
  simp only [List.mem_map, forall_exists_index, and_imp, forall_apply_eq_imp_iff₂]
  exact fun a hm => a.all_iff.2 (ha a hm)

/-- **C59.** Without zeros the data type of a block-diagonal matrix is the promotion of all data types of the blocks. -/
theorem C59_block_diag_promoted [SemilatticeSup D] {c : Cfg K} {δ : DEnv K D} (hδ : δ.promote = (· ⊔ ·)) {f : D} {as : List (TMat K D)} {r : TMat K D}
    (hv : ∀ a ∈ as, a.mat.Valid) (hz : ∀ a ∈ as, a.skel.NoZero) (h : TBlockDiag c δ.promote false f as r) :
    ∃ d, dtypeM δ r = .ok d ∧ IsLUB {x | ∃ a ∈ as, a.HasD x} d := by
  obtain ⟨e, he⟩ := (h.2.ok (okL hv)).dt δ.promote
  refine ⟨e, (dtypeM_iff r).2 he, ?_⟩
  have hr := h.2
  rw [hδ] at he hr
  constructor
  · rintro x ⟨a, ha, hx⟩
    have := hr.back e (by
      simp only [List.mem_map, forall_exists_index, and_imp, forall_apply_eq_imp_iff₂]
      exact hz) (he.le.1 (le_refl e)) a.skel (List.mem_map_of_mem ha)
    exact a.all_iff.1 this x hx
  · intro u hu
    refine he.le.2 (hr.all (S := (· ≤ u)) (fun _ _ => sup_le) ?_)
    simp only [List.mem_map, forall_exists_index, and_imp, forall_apply_eq_imp_iff₂]
    exact fun a hm => a.all_iff.2 fun x hx => hu ⟨a, hm, hx⟩

/-! ### Examples -/

example : ∃ r, TBlock Ex.cfgA Ex.denv.promote false [[Ex.tA, Ex.tP], [Ex.tP, Ex.tA]] r ∧ dtypeM Ex.denv r = .ok true := by
  obtain ⟨r, hr⟩ := Ex.exists_of_isOk (x := blockM (ops Ex.cfgA.noCancel 8) [[Ex.tA.mat, Ex.tP.mat], [Ex.tP.mat, Ex.tA.mat]]) (by decide +kernel)
  have hv : ∀ row ∈ [[Ex.tA, Ex.tP], [Ex.tP, Ex.tA]], ∀ a ∈ row, a.mat.Valid := by simpa using ⟨⟨Ex.tA_valid, Ex.tP_valid⟩, Ex.tP_valid, Ex.tA_valid⟩
  obtain ⟨r', -, h⟩ := C59_block_covered_nozero Ex.denv.promote (c := Ex.cfgA) hv (fun _ h => by cases h) ⟨8, hr⟩
  obtain ⟨d, hd, hu⟩ := C59_block_promoted rfl hv (by simpa using ⟨⟨⟨⟩, ⟨⟩, ⟨⟩, ⟨⟩⟩, ⟨⟨⟩, ⟨⟩, ⟨⟩⟩, ⟨⟩⟩) h
  have : d = true := top_le_iff.1 <| hu.1 ⟨_, List.mem_cons_self, Ex.tA, List.mem_cons_self, rfl⟩
  exact ⟨r', h, this ▸ hd⟩

example : ∃ r, TBlockDiag Ex.cfgA Ex.denv.promote false false [Ex.tP, Ex.tA] r ∧ dtypeM Ex.denv r = .ok true := by
  obtain ⟨r, hr⟩ := Ex.exists_of_isOk (x := blockDiagM Ex.cfgA.code (ops Ex.cfgA.noCancel 8) [Ex.tP.mat, Ex.tA.mat]) (by decide +kernel)
  have hv : ∀ a ∈ [Ex.tP, Ex.tA], a.mat.Valid := by simpa using ⟨Ex.tP_valid, Ex.tA_valid⟩
  obtain ⟨r', -, h⟩ := C59_block_diag_covered_nozero Ex.denv.promote false (c := Ex.cfgA) hv (fun _ h => by cases h) ⟨8, hr⟩
  obtain ⟨d, hd, hu⟩ := C59_block_diag_promoted rfl hv (by simpa using ⟨⟨⟨⟩, ⟨⟩, ⟨⟩⟩, ⟨⟩⟩) h
  have : d = true := top_le_iff.1 <| hu.1 ⟨Ex.tA, by simp, rfl⟩
  exact ⟨r', h, this ▸ hd⟩

/-- **C59**, finding: the block matrix of a Zero of a smaller and a Zero of a larger data type has the data type of the first block, not the promotion. -/
theorem C59_block_zero : ∃ a b r : TMat ℚ Bool, a.mat.Valid ∧ b.mat.Valid ∧ dtypeM Ex.denv a = .ok false ∧ dtypeM Ex.denv b = .ok true ∧
    (∀ r' : TMat ℚ Bool, TBlock Ex.cfgA Ex.denv.promote true [[a, b]] r' → dtypeM Ex.denv r' = .ok false) ∧ TBlock Ex.cfgA Ex.denv.promote true [[a, b]] r := by
  refine ⟨.zero false [] 2 2, .zero true [] 2 3, .zero false [] 2 5, ⟨[], ?_⟩, ⟨[], ?_⟩, rfl, rfl, ?_, ?_⟩
  · exact Fits.refl _
  · exact Fits.refl _
  · rintro r' ⟨⟨n, h⟩, hr⟩
    have hk : r'.mat = .zero [] 2 5 := by
      have : blockM (ops Ex.cfgA.code n) [[.zero [] 2 2, .zero [] 2 3]] = .ok (.zero [] 2 5) := rfl
      have h : blockM (ops Ex.cfgA.code n) [[.zero [] 2 2, .zero [] 2 3]] = .ok r'.mat := h
      simpa using (this.symm.trans h).symm
    have l := r'.lab
    rw [hk] at l
    rw [dtypeM_iff]
    generalize r'.skel = x at l hr ⊢
    cases hr with
    | zero _ => rfl
    | diag h => simp at h
    | dense => cases l
  · exact ⟨⟨8, rfl⟩, .zero (by simp [TMat.skel])⟩

end Verif
