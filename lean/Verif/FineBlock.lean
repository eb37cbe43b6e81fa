/-
`B.block` and `B.block_diag` succeed (C53), whatever the tolerance.
-/
import Verif.FineTake
import Verif.Block
import Verif.Shape

set_option linter.unusedSectionVars false

namespace Verif

variable {K : Type} [Field K] [LinearOrder K] [IsStrictOrderedRing K]

/-! ### Batches that broadcast against each other -/

theorem foldr_bsh_compat {l : List Shp} (h : ∀ s ∈ l, ∀ t ∈ l, Compat s t) : ∀ u, (∀ s ∈ l, Compat s u) → Compat (l.foldr bsh []) u := by
  induction l with
  | nil => intro u _; exact (Fits.nil u).compat (Fits.refl u)
  | cons a l ih =>
    intro u hu
    have ih' := ih fun s hs t ht => h s (by simp [hs]) t (by simp [ht])
    have ha : Compat a (l.foldr bsh []) := (ih' a fun s hs => h s (by simp [hs]) a (by simp)).symm
    exact (Py.compat_bsh_left ha).2 ⟨hu a (by simp), ih' u fun s hs => hu s (by simp [hs])⟩

theorem foldr_bsh_fits {l : List Shp} (h : ∀ s ∈ l, ∀ t ∈ l, Compat s t) : ∀ s ∈ l, Fits (l.foldr bsh []) s := by
  induction l with
  | nil => simp
  | cons a l ih =>
    have hl : ∀ s ∈ l, ∀ t ∈ l, Compat s t := fun s hs t ht => h s (by simp [hs]) t (by simp [ht])
    have ha : Compat a (l.foldr bsh []) := (foldr_bsh_compat hl a fun s hs => h s (by simp [hs]) a (by simp)).symm
    intro s hs
    rcases List.mem_cons.1 hs with rfl | hs
    · exact ha.fits_left
    · exact ha.fits_right.trans (ih hl s hs)

theorem foldr_bsh_pos {l : List Shp} (h : ∀ s ∈ l, 0 ∉ s) : 0 ∉ l.foldr bsh [] := by
  induction l with
  | nil => simp
  | cons a l ih => exact zero_bsh (h a (by simp)) (ih fun s hs => h s (by simp [hs]))

theorem foldr_bsh_length {l : List Shp} : ∀ s ∈ l, s.length ≤ (l.foldr bsh []).length := by
  induction l with
  | nil => simp
  | cons a l ih =>
    intro s hs
    rw [List.foldr_cons, length_bsh]
    rcases List.mem_cons.1 hs with rfl | hs
    · omega
    · have := ih s hs; omega

/-- The batch shapes of the matrices broadcast against each other. -/
def BatchesCompat (l : List (Mat K)) : Prop := ∀ a ∈ l, ∀ b ∈ l, Compat (den a).bt (den b).bt

theorem BatchesCompat.fits {l : List (Mat K)} (h : BatchesCompat l) : ∀ a ∈ l, Fits (btAll (l.map den)) (den a).bt := by
  intro a ha
  refine foldr_bsh_fits ?_ _ (by rw [List.map_map]; exact List.mem_map.2 ⟨a, ha, rfl⟩)
  intro s hs t ht
  rw [List.map_map] at hs ht
  obtain ⟨a, ha, rfl⟩ := List.mem_map.1 hs
  obtain ⟨b, hb, rfl⟩ := List.mem_map.1 ht
  exact h a ha b hb

theorem btAll_length {l : List (Mat K)} : ∀ a ∈ l, (den a).bt.length ≤ (btAll (l.map den)).length := fun a ha =>
  foldr_bsh_length _ (by rw [List.map_map]; exact List.mem_map.2 ⟨a, ha, rfl⟩)

theorem btAll_pos {l : List (Mat K)} (h : ∀ a ∈ l, 0 ∉ (den a).bt) : 0 ∉ btAll (l.map den) := by
  refine foldr_bsh_pos fun s hs => ?_
  rw [List.map_map] at hs
  obtain ⟨a, ha, rfl⟩ := List.mem_map.1 hs
  exact h a ha

theorem shapeBatchBroadcastL_of {l : List (Mat K)} (hv : ∀ a ∈ l, a.Valid) (h : BatchesCompat l) : shapeBatchBroadcastL l = .ok (btAll (l.map den)) := by
  have e1 : l.mapM shapeBatch = .ok (l.map fun a => (den a).bt) := mapM_eq_map fun a ha => (hv a ha).own.shapeBatch
  have e2 : (l.map fun a => (den a).bt).foldlM bsE [] = .ok ((l.map fun a => (den a).bt).foldl bsh []) := by
    refine foldlM_bsE (U := btAll (l.map den)) _ _ (Fits.nil _) fun t ht => ?_
    obtain ⟨a, ha, rfl⟩ := List.mem_map.1 ht
    exact h.fits a ha
  have e3 : shapeBatchBroadcastL l = .ok ((l.map fun a => (den a).bt).foldl bsh []) := by
    simp only [shapeBatchBroadcastL, e1]; exact e2
  rw [e3, (shapeBatchBroadcastL_ok hv e3).1]

/-- A list of matrices with their batches broadcast. -/
structure AlignedL (T : Shp) (l : List (Mat K)) (l' : List (Mat K)) : Prop where
  al : List.Forall₂ (Aligned T) l l'
  fit : ∀ b ∈ l', b.fit true

theorem bbL_of {T : Shp} {l : List (Mat K)} (hv : ∀ a ∈ l, a.Valid) (hf : ∀ a ∈ l, a.fit true) (h2 : ∀ a ∈ l, 2 ≤ (den a).rank) (hT : ∀ a ∈ l, Fits T (den a).bt)
    (hl : ∀ a ∈ l, (den a).bt.length ≤ T.length) : ∃ l', l.mapM (broadcastBatchTo T) = .ok l' ∧ AlignedL T l l' := by
  have : ∃ l', l.mapM (broadcastBatchTo T) = .ok l' ∧ ∀ b ∈ l', b.fit true := by
    have one : ∀ a ∈ l, ∃ b, broadcastBatchTo T a = .ok b ∧ b.fit true := fun a ha => by
      obtain ⟨b, hb⟩ := broadcastBatchTo_total ((hv a ha).own.mono (hT a ha)) (h2 a ha) (fit_noTiled (hf a ha)) (hl a ha)
      exact ⟨b, hb, fitp_broadcastBatchTo T (hf a ha) _ hb⟩
    clear hv hf h2 hT hl
    induction l with
    | nil => exact ⟨[], rfl, by simp⟩
    | cons a l ih =>
      obtain ⟨b, hb, fb⟩ := one a (by simp)
      obtain ⟨l', hl, fl⟩ := ih fun a ha => one a (by simp [ha])
      refine ⟨b :: l', by rw [List.mapM_cons, hb, hl]; rfl, fun x hx => ?_⟩
      rcases List.mem_cons.1 hx with rfl | hx
      · exact fb
      · exact fl x hx
  obtain ⟨l', h, hfit⟩ := this
  exact ⟨l', h, aligned_of hv hT h, hfit⟩

theorem AlignedL.mem {T : Shp} {l l' : List (Mat K)} (h : AlignedL T l l') {b : Mat K} (hb : b ∈ l') : b.WF T ∧ (den b).bt = T ∧ 2 ≤ (den b).rank ∧ b.fit true ∧
    (den b).sh = (den b).cols :: (den b).rows :: T := by
  obtain ⟨a, _, ha⟩ := forall₂_mem h.al hb
  refine ⟨ha.wf, by rw [ha.den]; rfl, by rw [ha.den]; exact bbT_rank _ _, h.fit b hb, by rw [ha.den]; rfl⟩

theorem alignBatchL_of {l : List (Mat K)} (hs : ∀ a ∈ l, a.Supported) (h2 : ∀ a ∈ l, 2 ≤ (den a).rank) (hc : BatchesCompat l) :
    ∃ l', alignBatchL l = .ok l' ∧ AlignedL (btAll (l.map den)) l l' := by
  obtain ⟨l', h, ha⟩ := bbL_of (fun a ha => (hs a ha).valid) (fun a ha => (hs a ha).fit) h2 hc.fits btAll_length
  refine ⟨l', ?_, ha⟩
  simp only [alignBatchL, shapeBatchBroadcastL_of (fun a ha => (hs a ha).valid) hc]
  exact h

theorem alignBatchRows_of {rows : List (List (Mat K))} (hs : ∀ row ∈ rows, ∀ a ∈ row, a.Supported) (h2 : ∀ row ∈ rows, ∀ a ∈ row, 2 ≤ (den a).rank)
    (hc : BatchesCompat rows.flatten) : ∃ rows', alignBatchRows rows = .ok rows' ∧ List.Forall₂ (AlignedL (btAll (rows.flatten.map den))) rows rows' := by
  have mem : ∀ row ∈ rows, ∀ a ∈ row, a ∈ rows.flatten := fun row hr a ha => List.mem_flatten.2 ⟨row, hr, ha⟩
  have hv : ∀ a ∈ rows.flatten, a.Valid := fun a ha => by
    obtain ⟨row, hr, ha⟩ := List.mem_flatten.1 ha
    exact (hs row hr a ha).valid
  have one : ∀ row ∈ rows, ∃ l', row.mapM (broadcastBatchTo (btAll (rows.flatten.map den))) = .ok l' ∧ AlignedL (btAll (rows.flatten.map den)) row l' := fun row hr =>
    bbL_of (fun a ha => (hs row hr a ha).valid) (fun a ha => (hs row hr a ha).fit) (h2 row hr) (fun a ha => hc.fits a (mem row hr a ha)) fun a ha => btAll_length a (mem row hr a ha)
  have all : ∀ T, (∀ row ∈ rows, ∃ l', row.mapM (broadcastBatchTo T) = .ok l' ∧ AlignedL T row l') →
      ∃ rows', (rows.mapM fun row => row.mapM (broadcastBatchTo T)) = .ok rows' ∧ List.Forall₂ (AlignedL T) rows rows' := by
    intro T h
    clear one hv mem hc h2 hs
    induction rows with
    | nil => exact ⟨[], rfl, .nil⟩
    | cons r rows ih =>
      obtain ⟨r', e, a⟩ := h r (by simp)
      obtain ⟨rows', e', a'⟩ := ih fun x hx => h x (by simp [hx])
      exact ⟨r' :: rows', by rw [List.mapM_cons, e, e']; rfl, .cons a a'⟩
  obtain ⟨rows', h, ha⟩ := all _ one
  refine ⟨rows', ?_, ha⟩
  simp only [alignBatchRows, shapeBatchBroadcastL_of hv hc]
  exact h

theorem Forall₂.aligned {T : Shp} {rows rows' : List (List (Mat K))} (h : List.Forall₂ (AlignedL T) rows rows') : List.Forall₂ (List.Forall₂ (Aligned T)) rows rows' :=
  h.imp fun _ _ h => h.al

/-! ### Concatenation -/

theorem nConcat_vec_of {ts : List (Tensor K)} {s : Shp} (h0 : ts ≠ []) (hs : ∀ t ∈ ts, t.sh = t.cols :: s) : Calm (nConcat (-1) ts) := by
  refine nConcat_calm (k := 0) h0 (fun t ht => ?_) fun t ht u hu => ?_
  · exact axPos_iff.1 (axPos_negAxis (k := 0) (by rw [Tensor.rank, hs t ht]; simp))
  · rw [hs t ht, hs u hu]
    refine ⟨by simp, fun q hq => ?_⟩
    cases q with
    | zero => exact absurd rfl hq
    | succ q => rfl

theorem nConcat_rows_of {ts : List (Tensor K)} {s : Shp} {n : ℕ} (h0 : ts ≠ []) (hs : ∀ t ∈ ts, t.sh = n :: t.rows :: s) : Calm (nConcat (-2) ts) := by
  refine nConcat_calm (k := 1) h0 (fun t ht => ?_) fun t ht u hu => ?_
  · exact axPos_iff.1 (axPos_negAxis (k := 1) (by rw [Tensor.rank, hs t ht]; simp))
  · rw [hs t ht, hs u hu]
    refine ⟨by simp, fun q hq => ?_⟩
    rcases q with _ | _ | q
    · rfl
    · exact absurd rfl hq
    · rfl

theorem concat2d_calm {bt : Shp} {hs ws : List ℕ} {ts : List (List (Tensor K))} (h0 : hs ≠ []) (w0 : ws ≠ []) (hg : IsGrid hs ws ts)
    (hsh : ∀ row ∈ ts, ∀ t ∈ row, t.sh = t.cols :: t.rows :: bt) : Calm (nConcat2d ts) := by
  have t0 : ts ≠ [] := by
    rintro rfl
    cases hg; exact h0 rfl
  have row : ∀ row ∈ ts, ∃ h, (∀ t ∈ row, t.sh = t.cols :: h :: bt) ∧ row.map Tensor.cols = ws ∧ row ≠ [] := by
    intro row hr
    obtain ⟨h, _, hrow⟩ := forall₂_mem hg hr
    refine ⟨h, fun t ht => ?_, ?_, ?_⟩
    · obtain ⟨w, _, e1, e2⟩ := forall₂_mem hrow ht
      rw [hsh row hr t ht, e1]
    · have := forall₂_map_eq hrow (f := fun w => w) (g := Tensor.cols) fun w t e => e.2.symm
      rw [← this, List.map_id']
    · rintro rfl
      cases hrow; exact w0 rfl
  unfold nConcat2d
  refine Calm.bind (Calm.mapM fun r hr => ?_) fun rs hrs => ?_
  · obtain ⟨h, e, _, r0⟩ := row r hr
    exact nConcat_vec_of r0 e
  · have hm := mapM_ok hrs
    refine nConcat_rows_of (n := ws.sum) (s := bt) ?_ fun t ht => ?_
    · rintro rfl
      cases hm; exact t0 rfl
    · obtain ⟨r, hr, e⟩ := forall₂_mem hm ht
      obtain ⟨h, e1, e2, _⟩ := row r hr
      obtain ⟨_, e3, _⟩ := nConcat_cols e1 e
      rw [e2] at e3
      rw [Tensor.rows, e3]; rfl

/-! ### `B.block` -/

theorem allE_calm {l : List (E Bool)} (h : ∀ x ∈ l, Calm x) : Calm (allE l) := by
  induction l with
  | nil => exact Calm.ok
  | cons x l ih =>
    refine Calm.bind (h x (by simp)) fun b _ => ?_
    cases b
    · exact Calm.pure
    · exact ih fun y hy => h y (by simp [hy])

section
variable {B : Ops K} (hB : B.Ok) (hF : ∀ S, 0 ∉ S → B.Fine S)
include hB hF

/-- The diagonals of aligned Diagonal and square Zero blocks, concatenated. -/
theorem concat_diags_calm {T : Shp} {l l' : List (Mat K)} (h0 : 0 ∉ T) (hl : l ≠ []) (hal : AlignedL T l l') (hk : ∀ a ∈ l, (isDiagM a || isZeroM a) = true ∧ (den a).rows = (den a).cols) :
    Calm (do let vs ← l'.mapM B.diag; mkDiag (← nConcat (-1) vs) : E (Mat K)) := by
  refine Calm.bind (Calm.mapM fun b hb => ?_) fun vs hvs => ?_
  · obtain ⟨a, ha, hab⟩ := forall₂_mem hal.al hb
    obtain ⟨w, _, k2, fb, _⟩ := hal.mem hb
    refine (hF T h0).diag w fb k2 ?_
    have := (hk a ha).1
    rw [← hab.isDiagM, ← hab.isZeroM] at this
    cases b <;> simp [isDiagM, isZeroM] at this <;> trivial
  · have hvm := mapM_ok hvs
    have sh : ∀ v ∈ vs, v.sh = v.cols :: T := by
      intro v hv
      obtain ⟨b, hb, e⟩ := forall₂_mem hvm hv
      obtain ⟨a, ha, hab⟩ := forall₂_mem hal.al hb
      exact (diag_aligned hB hab (hk a ha).1 (hk a ha).2 e).1
    have v0 : vs ≠ [] := by
      rintro rfl
      have := hvm.length_eq
      have := hal.al.length_eq
      simp_all
    refine Calm.bind (nConcat_vec_of v0 sh) fun v hv => ?_
    obtain ⟨_, e, _⟩ := nConcat_vec sh hv
    exact Calm.of (mkDiag_of (by rw [Tensor.rank, e]; simp))

theorem blockDiagonal_calm {T : Shp} {rows rows' : List (List (Mat K))} (h0 : 0 ∉ T) (r0 : rows ≠ []) (hal : List.Forall₂ (AlignedL T) rows rows') : Calm (blockDiagonal B rows') := by
  have hv' : ∀ b ∈ rows'.flatten, b.Valid ∧ (den b).bt = T ∧ 2 ≤ (den b).rank ∧ b.fit true := by
    intro b hb
    obtain ⟨row', hr, hb⟩ := List.mem_flatten.1 hb
    obtain ⟨row, _, h⟩ := forall₂_mem hal hr
    obtain ⟨w, e, k, f, _⟩ := h.mem hb
    exact ⟨⟨_, w⟩, e, k, f⟩
  have cellE : ∀ (p q : ℕ) (x : Mat K), x ∈ rows'.flatten → blockCell p q x =
      .ok (if p = q then (isDiagM x || isZeroM x) && decide ((den x).rows = (den x).cols) else isZeroM x) := by
    intro p q x hx
    simp only [blockCell, (hv' x hx).1.own.shapeMatrix]
    rfl
  unfold blockDiagonal
  refine Calm.ite (fun _ => Calm.pure) fun hsq => ?_
  have hsq : ∀ row ∈ rows', row.length = rows'.length := by simpa using hsq
  refine Calm.bind (allE_calm fun x hx => ?_) fun ok hok => ?_
  · simp only [List.mem_flatMap, List.mem_map] at hx
    obtain ⟨⟨row, p⟩, hp, ⟨y, q⟩, hq, rfl⟩ := hx
    exact Calm.of (cellE _ _ _ (List.mem_flatten.2 ⟨row, List.mem_of_getElem? (List.mk_mem_zipIdx_iff_getElem?.1 hp), List.mem_of_getElem? (List.mk_mem_zipIdx_iff_getElem?.1 hq)⟩))
  cases ok with
  | false => exact Calm.pure
  | true =>
    have hcell := allE_true hok
    have hdg : ∀ p, (diagBlocks 0 rows')[p]? = (rows'[p]?).bind fun row => row[p]? := fun p => by
      rw [diagBlocks_get fun row hr => by rw [hsq row hr]; omega]
      rcases rows'[p]? with _ | row
      · rfl
      · simp; rfl
    have hd : ∀ b ∈ diagBlocks 0 rows', b ∈ rows'.flatten ∧ (isDiagM b || isZeroM b) = true ∧ (den b).rows = (den b).cols := by
      intro b hb
      obtain ⟨p, hp⟩ := List.getElem?_of_mem hb
      rw [hdg, Option.bind_eq_some_iff] at hp
      obtain ⟨row, h1, h2⟩ := hp
      have hm : b ∈ rows'.flatten := List.mem_flatten.2 ⟨row, List.mem_of_getElem? h1, List.mem_of_getElem? h2⟩
      have := hcell (blockCell p p b) (List.mem_flatMap.2 ⟨(row, p), List.mk_mem_zipIdx_iff_getElem?.2 h1, List.mem_map.2 ⟨(b, p), List.mk_mem_zipIdx_iff_getElem?.2 h2, rfl⟩⟩)
      rw [cellE p p b hm, if_pos rfl] at this
      simp only [Except.ok.injEq, Bool.and_eq_true, decide_eq_true_eq] at this
      exact ⟨hm, this⟩
    have d0 : diagBlocks 0 rows' ≠ [] := by
      cases hal with
      | nil => exact absurd rfl r0
      | @cons _ row' _ rows' _ _ =>
        intro h
        have e := hdg 0
        rw [h] at e
        have := hsq row' (by simp)
        cases row' with
        | nil => simp at this
        | cons x row' => simp at e
    have hc : BatchesCompat rows'.flatten := fun a ha b hb => by rw [(hv' a ha).2.1, (hv' b hb).2.1]; exact Compat.refl _
    have f0 : rows'.flatten ≠ [] := by
      obtain ⟨b, hb⟩ := List.exists_mem_of_ne_nil _ d0
      exact List.ne_nil_of_mem (hd b hb).1
    have eT : btAll (rows'.flatten.map den) = T := btAll_const (by simpa using f0) fun t ht => by obtain ⟨a, ha, rfl⟩ := List.mem_map.1 ht; exact (hv' a ha).2.1
    refine Calm.ite (fun h => absurd h (by decide)) fun _ => Calm.step (shapeBatchBroadcastL_of (fun a ha => (hv' a ha).1) hc) ?_
    rw [eT]
    obtain ⟨l', el, hl⟩ := bbL_of (T := T) (l := diagBlocks 0 rows') (fun a ha => (hv' a (hd a ha).1).1) (fun a ha => (hv' a (hd a ha).1).2.2.2) (fun a ha => (hv' a (hd a ha).1).2.2.1)
      (fun a ha => by rw [(hv' a (hd a ha).1).2.1]; exact Fits.refl _) fun a ha => by rw [(hv' a (hd a ha).1).2.1]
    refine Calm.step el ?_
    have := Calm.bind (f := fun r => (pure (some r) : E (Option (Mat K)))) (concat_diags_calm hB hF h0 d0 hl fun a ha => (hd a ha).2) fun _ _ => Calm.pure
    simpa only [bind_assoc] using this

omit hB hF in
theorem blockZero_calm {rows : List (List (Mat K))} (h1 : ∀ row ∈ rows, row ≠ []) (hv : ∀ row ∈ rows, ∀ a ∈ row, a.Valid) (hc : BatchesCompat rows.flatten) : Calm (blockZero rows) := by
  have hv' : ∀ a ∈ rows.flatten, a.Valid := fun a ha => by
    obtain ⟨row, hr, ha⟩ := List.mem_flatten.1 ha
    exact hv row hr a ha
  unfold blockZero
  refine Calm.step (shapeBatchBroadcastL_of hv' hc) (Calm.bind (Calm.mapM fun row hr => ?_) fun _ _ => Calm.bind (Calm.mapM fun a ha => ?_) fun _ _ => Calm.ok)
  · cases row with
    | nil => exact absurd rfl (h1 _ hr)
    | cons a row => exact Calm.step (hv _ hr a (by simp)).own.shapeMatrix Calm.pure
  · refine Calm.step (Mat.Valid.own ?_).shapeMatrix Calm.pure
    cases rows with
    | nil => exact absurd ha (by simp)
    | cons row rows => exact hv row (by simp) a ha

theorem blockM_calm {rows : List (List (Mat K))} {hs ws : List ℕ} (hh0 : hs ≠ []) (hw0 : ws ≠ []) (hv : ∀ row ∈ rows, ∀ a ∈ row, a.Supported)
    (h2 : ∀ row ∈ rows, ∀ a ∈ row, 2 ≤ (den a).rank) (hg : IsGrid hs ws (rows.map fun row => row.map den)) (hc : BatchesCompat rows.flatten) : Calm (blockM B rows) := by
  have r0 : rows ≠ [] := by
    rintro rfl
    cases hg; exact hh0 rfl
  have r1 : ∀ row ∈ rows, row ≠ [] := by
    rintro row hr rfl
    obtain ⟨h, _, hrow⟩ := forall₂_mem hg (List.mem_map.2 ⟨_, hr, rfl⟩)
    cases hrow; exact hw0 rfl
  have p0 : 0 ∉ btAll (rows.flatten.map den) := btAll_pos fun a ha => by
    obtain ⟨row, hr, ha⟩ := List.mem_flatten.1 ha
    exact (hv row hr a ha).batch
  unfold blockM
  split
  · exact absurd rfl r0
  · exact Calm.ok
  · refine Calm.ite (fun _ => blockZero_calm r1 (fun row hr a ha => (hv row hr a ha).valid) hc) fun _ => ?_
    obtain ⟨rows', e, hal⟩ := alignBatchRows_of hv h2 hc
    refine Calm.step e (Calm.bind (blockDiagonal_calm hB hF p0 r0 hal) fun o _ => ?_)
    cases o with
    | some r => exact Calm.pure
    | none =>
      refine Calm.step e (Calm.bind (Calm.mapM fun row hr => Calm.mapM fun b hb => ?_) fun ds hds => Calm.bind ?_ fun _ _ => Calm.pure)
      · obtain ⟨_, _, h⟩ := forall₂_mem hal hr
        obtain ⟨w, _, _, f, _⟩ := h.mem hb
        exact (hF _ p0).dense w f
      · have e : ∀ T, List.Forall₂ (AlignedL T) rows rows' → ds = (dens rows).map fun row => row.map (bbT T) := by
          intro T hal
          have hm := mapM_ok hds
          have hal := Forall₂.aligned hal
          clear hds hg hv h2 hc r0 r1 p0 e
          clear * - hal hm hB
          induction hal generalizing ds with
          | nil => cases hm; rfl
          | cons ha _ ih =>
            cases hm with
            | cons hx hm =>
              simp only [dens, List.map_cons]
              congr 1
              · exact dense_aligned hB ha hx
              · exact ih _ hm
        rw [e _ hal]
        refine concat2d_calm (bt := btAll (rows.flatten.map den)) hh0 hw0 (hs := hs) (ws := ws) ?_ ?_
        · have hg : IsGrid hs ws (dens rows) := hg
          unfold IsGrid at hg ⊢
          rw [List.forall₂_map_right_iff]
          refine hg.imp fun m row h => ?_
          rw [List.forall₂_map_right_iff]
          exact h
        · intro row hr t ht
          obtain ⟨row, _, rfl⟩ := List.mem_map.1 hr
          obtain ⟨t, _, rfl⟩ := List.mem_map.1 ht
          rfl

/-! ### `B.block_diag` -/

omit hB hF in
theorem bdRows_calm {bt : Shp} {total built : ℕ} {els : List (Tensor K)} (hs : ∀ e ∈ els, e.sh = e.cols :: e.rows :: bt) :
    Calm (bdRows bt total built (els.zip (els.map fun e => (e.rows, e.cols)))) := by
  induction els generalizing built with
  | nil => exact Calm.ok
  | cons e els ih =>
    refine Calm.bind ?_ fun _ _ => Calm.bind (ih fun e he => hs e (by simp [he])) fun _ _ => Calm.pure
    refine nConcat_vec_of (s := e.rows :: bt) (by simp) ?_
    intro t ht
    simp only [List.mem_cons, List.not_mem_nil, or_false] at ht
    rcases ht with rfl | rfl | rfl
    · rfl
    · exact hs _ (by simp)
    · rfl

omit hB hF in
theorem blockDiagNum_calm {ts : List (Tensor K)} (hl : 2 ≤ ts.length) (h2 : ∀ t ∈ ts, 2 ≤ t.rank) (hp : ∀ t ∈ ts, 0 ∉ t.bt) (hc : ∀ t ∈ ts, ∀ u ∈ ts, Compat t.bt u.bt) :
    Calm (blockDiagNum ts) := by
  have hs : ∀ a ∈ ts.map (Mat.num : Tensor K → Mat K), a.Supported := by
    intro a ha
    obtain ⟨t, ht, rfl⟩ := List.mem_map.1 ha
    exact ⟨⟨t.bt, by show t.rank ≠ 1; have := h2 t ht; omega, Fits.refl _⟩, trivial, hp t ht⟩
  have hk : ∀ a ∈ ts.map (Mat.num : Tensor K → Mat K), 2 ≤ (den a).rank := by
    intro a ha
    obtain ⟨t, ht, rfl⟩ := List.mem_map.1 ha
    exact h2 t ht
  have hc' : BatchesCompat (ts.map (Mat.num : Tensor K → Mat K)) := by
    intro a ha b hb
    obtain ⟨t, ht, rfl⟩ := List.mem_map.1 ha
    obtain ⟨u, hu, rfl⟩ := List.mem_map.1 hb
    exact hc t ht u hu
  obtain ⟨as, e, hal⟩ := alignBatchL_of hs hk hc'
  rw [map_den_num] at hal
  have hlen : as.length = ts.length := by have := hal.al.length_eq; simpa using this.symm
  have hm : bdElements (as.map den) = as.map den := by
    rcases as with _ | ⟨t, _ | ⟨u, l⟩⟩
    · rfl
    · simp at hlen; omega
    · rfl
  have he : ∀ x ∈ as.map den, x.sh = x.cols :: x.rows :: btAll ts ∧ 2 ≤ x.rank ∧ x.bt = btAll ts := by
    intro x hx
    obtain ⟨a, ha, rfl⟩ := List.mem_map.1 hx
    obtain ⟨_, e1, e2, _, e3⟩ := hal.mem ha
    exact ⟨e3, e2, e1⟩
  unfold blockDiagNum
  refine Calm.step e ?_
  rw [hm]
  refine Calm.step (mapM_shapeMatrix _ fun x hx => (he x hx).2.1) ?_
  have hb : headBatch (as.map den) = .ok (btAll ts) := by
    cases as with
    | nil => simp at hlen; omega
    | cons a as =>
      have h := he (den a) (by simp)
      have w : Mat.WF (den a).bt (.num (den a) : Mat K) := ⟨by omega, Fits.refl _⟩
      show shapeBatch _ = _
      rw [w.shapeBatch]
      show Except.ok (den a).bt = _
      rw [h.2.2]
  refine Calm.step hb (Calm.bind (bdRows_calm fun x hx => (he x hx).1) fun rows hrows => ?_)
  have e2 : ((as.map den).map fun e => (e.rows, e.cols)).map (·.2) = (as.map den).map Tensor.cols := by rw [List.map_map]; rfl
  rw [e2] at hrows
  obtain ⟨h1, h3⟩ := bdRows_ok (fun x hx => (he x hx).1) (Nat.zero_add _) hrows
  refine nConcat_rows_of (n := ((as.map den).map Tensor.cols).sum) (s := btAll ts) ?_ fun t ht => ?_
  · rintro rfl
    have := congrArg List.length h1
    simp at this; omega
  · obtain ⟨p, hp⟩ := List.getElem?_of_mem ht
    obtain ⟨x, _, e, _⟩ := h3 p t hp
    rw [Tensor.rows, e]; rfl

theorem blockDiagList_calm {as : List (Mat K)} (h0 : as ≠ []) (hv : ∀ a ∈ as, a.Supported) (h2 : ∀ a ∈ as, 2 ≤ (den a).rank) (h1 : ∀ a, as = [a] → a.isAM = true) (hc : BatchesCompat as) :
    Calm (blockDiagList B as) := by
  have hn : (∀ a, as ≠ [a]) → Calm (blockDiagNum (as.map den)) := fun hne => by
    refine blockDiagNum_calm ?_ ?_ ?_ ?_
    · rcases as with _ | ⟨t, _ | ⟨u, l⟩⟩
      · exact absurd rfl h0
      · exact absurd rfl (hne t)
      · simp
    · intro t ht
      obtain ⟨a, ha, rfl⟩ := List.mem_map.1 ht
      exact h2 a ha
    · intro t ht
      obtain ⟨a, ha, rfl⟩ := List.mem_map.1 ht
      exact (hv a ha).batch
    · intro t ht u hu
      obtain ⟨a, ha, rfl⟩ := List.mem_map.1 ht
      obtain ⟨b, hb, rfl⟩ := List.mem_map.1 hu
      exact hc a ha b hb
  have hvv : ∀ a ∈ as, a.Valid := fun a ha => (hv a ha).valid
  unfold blockDiagList
  split
  · exact absurd rfl h0
  · refine Calm.ite (fun hall => Calm.bind (hn fun a e => ?_) fun _ _ => Calm.pure) fun _ => ?_
    · have := h1 a e
      subst e
      simp [this] at hall
    · unfold blockDiagAM
      split
      · exact Calm.ok
      · rename_i hne
        refine Calm.ite (fun _ => ?_) fun _ => Calm.ite (fun hd => ?_) fun _ => ?_
        · exact Calm.step (shapeBatchBroadcastL_of hvv hc) (Calm.bind (Calm.mapM fun a ha => Calm.step (hvv a ha).own.shapeMatrix Calm.pure) fun _ _ =>
            Calm.bind (Calm.mapM fun a ha => Calm.step (hvv a ha).own.shapeMatrix Calm.pure) fun _ _ => Calm.ok)
        · obtain ⟨l', e, hal⟩ := alignBatchL_of hv h2 hc
          have hd' : ∀ a ∈ as, isDiagM a = true := by simpa using hd
          exact Calm.step e (concat_diags_calm hB hF (btAll_pos fun a ha => (hv a ha).batch) h0 hal fun a ha => ⟨by rw [hd' a ha]; rfl, isDiagM_square (hd' a ha)⟩)
        · refine Calm.bind (Calm.mapM fun a ha => (hF _ (hv a ha).batch).dense (hvv a ha).own (hv a ha).fit) fun ds hds => ?_
          rw [mapM_den hB hvv hds]
          exact Calm.bind (hn fun a e => hne a e) fun _ _ => Calm.pure
end

/-! ### The tolerance does not matter -/

section
variable {env : Env K} {B C : Ops K} (hT : B.Twin env C)
include hT

theorem twin_mapM_diag {as : List (Mat K)} (ha : ∀ a ∈ as, a.wo true) : as.mapM B.diag = as.mapM C.diag := by
  induction as with
  | nil => rfl
  | cons a as ih => simp only [List.mapM_cons, (hT.diag (ha a (by simp))).1, ih fun b hb => ha b (by simp [hb])]

omit hT in
theorem wo_bbL {T : Shp} {l l' : List (Mat K)} (hw : ∀ a ∈ l, a.wo true) (h : l.mapM (broadcastBatchTo T) = .ok l') : ∀ b ∈ l', b.wo true := by
  intro b hb
  obtain ⟨a, ha, e⟩ := forall₂_mem (mapM_ok h) hb
  exact wop_broadcastBatchTo T (hw a ha) _ e

omit hT in
theorem wo_alignRows {rows rows' : List (List (Mat K))} (hw : ∀ row ∈ rows, ∀ a ∈ row, a.wo true) (h : alignBatchRows rows = .ok rows') : ∀ row ∈ rows', ∀ b ∈ row, b.wo true := by
  simp only [alignBatchRows, bind_ok_iff] at h
  obtain ⟨s, _, h⟩ := h
  intro row hr
  obtain ⟨r, hr', e⟩ := forall₂_mem (mapM_ok h) hr
  exact wo_bbL (hw r hr') e

omit hT in
theorem E.bind_congr {α β : Type} {x : E α} {f g : α → E β} (h : ∀ v, x = .ok v → f v = g v) : (x >>= f) = (x >>= g) := by
  cases x with
  | error e => rfl
  | ok v => exact h v rfl

omit hT in
theorem mem_diagBlocks {α : Type} {r : ℕ} {rows : List (List α)} {a : α} (h : a ∈ diagBlocks r rows) : ∃ row ∈ rows, a ∈ row := by
  induction rows generalizing r with
  | nil => simp [diagBlocks] at h
  | cons row rows ih =>
    rw [diagBlocks, List.mem_append] at h
    rcases h with h | h
    · exact ⟨row, by simp, List.mem_of_getElem? (by simpa using h)⟩
    · obtain ⟨x, hx, ha⟩ := ih h
      exact ⟨x, by simp [hx], ha⟩

theorem twin_blockDiagonal {rows : List (List (Mat K))} (hw : ∀ row ∈ rows, ∀ a ∈ row, a.wo true) : blockDiagonal B rows = blockDiagonal C rows := by
  unfold blockDiagonal
  split_ifs
  · rfl
  refine E.bind_congr fun ok _ => ?_
  split_ifs
  · rfl
  refine E.bind_congr fun s _ => E.bind_congr fun bs hbs => ?_
  rw [twin_mapM_diag hT (wo_bbL (fun a ha => ?_) hbs)]
  obtain ⟨row, hr, ha⟩ := mem_diagBlocks ha
  exact hw row hr a ha

theorem twin_mapM2 {rows : List (List (Mat K))} (hw : ∀ row ∈ rows, ∀ a ∈ row, a.wo true) : (rows.mapM fun row => row.mapM B.dense) = rows.mapM fun row => row.mapM C.dense := by
  induction rows with
  | nil => rfl
  | cons r rows ih => simp only [List.mapM_cons, twin_mapM hT (hw r (by simp)), ih fun x hx => hw x (by simp [hx])]

theorem twin_block {rows : List (List (Mat K))} (hw : ∀ row ∈ rows, ∀ a ∈ row, a.wo true) : blockM B rows = blockM C rows := by
  unfold blockM
  split
  · rfl
  · rfl
  · split_ifs
    · rfl
    refine E.bind_congr fun rows' hr => ?_
    rw [twin_blockDiagonal hT (wo_alignRows hw hr)]
    refine E.bind_congr fun o _ => ?_
    cases o with
    | some r => rfl
    | none => exact E.bind_congr fun rows' hr => by rw [twin_mapM2 hT (wo_alignRows hw hr)]

theorem twin_blockDiag {e : Env K} {as : List (Mat K)} (hw : ∀ a ∈ as, a.wo true) (hn : ∀ a, as = [a] → a.kind ≠ some .tiled) : blockDiagM e B as = blockDiagM e C as := by
  unfold blockDiagM
  split
  · exact absurd rfl (hn _ rfl)
  · unfold blockDiagList
    split
    · rfl
    · split_ifs
      · rfl
      · unfold blockDiagAM
        split
        · rfl
        · split_ifs
          · rfl
          · refine E.bind_congr fun bs hbs => ?_
            simp only [alignBatchL, bind_ok_iff] at hbs
            obtain ⟨s, _, h⟩ := hbs
            rw [twin_mapM_diag hT (wo_bbL hw h)]
          · rw [twin_mapM hT hw]
end

variable (c : Cfg K)

/-- C46.  The tolerance does not influence `B.block` -/
theorem C46_block {rows : List (List (Mat K))} (hw : ∀ row ∈ rows, ∀ a ∈ row, a.wo true) : ToleranceFree c fun B => blockM B rows :=
  .of fun _ hn n => twin_block (ops_twin hn n) hw
/-- C46.  or `B.block_diag`. -/
theorem C46_block_diag {as : List (Mat K)} (hw : ∀ a ∈ as, a.wo true) (hn : ∀ a, as = [a] → a.kind ≠ some .tiled) : ToleranceFree c fun B => blockDiagM c.code B as :=
  .of fun _ hx n => twin_blockDiag (ops_twin hx n) hw hn

/-! ### C53 -/

/-- C53.  A grid of matrices whose batches broadcast against each other can be assembled to a block matrix. -/
theorem C53_block {rows : List (List (Mat K))} {hs ws : List ℕ} (hh0 : hs ≠ []) (hw0 : ws ≠ []) (hv : ∀ row ∈ rows, ∀ a ∈ row, a.Supported)
    (hw : ∀ row ∈ rows, ∀ a ∈ row, a.wo true) (h2 : ∀ row ∈ rows, ∀ a ∈ row, 2 ≤ (den a).rank) (hg : IsGrid hs ws (rows.map fun row => row.map den))
    (hc : BatchesCompat rows.flatten) :
    ∃ r, Returns c (fun B => blockM B rows) r ∧ r.Valid ∧ IsBlock (btAll (rows.flatten.map den)) hs ws (rows.map fun row => row.map den) (den r) := by
  have hx := (C46_block c hw).2
  obtain ⟨r, h⟩ := (C35_block c rows).returns hx fun n => blockM_calm (c.ok n) (c.fineAll n) hh0 hw0 hv h2 hg hc
  exact ⟨r, h, C15_block c hw0 (fun row hr a ha => (hv row hr a ha).valid) h2 hg h hx⟩

/-- C53.  A block-diagonal matrix can be assembled of matrices whose batches broadcast against each other. -/
theorem C53_block_diag {as : List (Mat K)} (h0 : as ≠ []) (hv : ∀ a ∈ as, a.Supported) (hw : ∀ a ∈ as, a.wo true) (h2 : ∀ a ∈ as, 2 ≤ (den a).rank)
    (h1 : ∀ a, as = [a] → a.isAM = true) (hc : BatchesCompat as) :
    ∃ r, Returns c (fun B => blockDiagM c.code B as) r ∧ r.Valid ∧ IsBlockDiag (btAll (as.map den)) (as.map den) (den r) := by
  have hn : ∀ a, as = [a] → a.kind ≠ some .tiled := by
    intro a e
    have := (hv a (by rw [e]; simp)).fit
    cases a <;> first | exact this.elim | simp [Mat.kind]
  have hx := (C46_block_diag c hw hn).2
  obtain ⟨r, h⟩ := (C35_block_diag c as).returns hx fun n => by
    have e : blockDiagM c.code (ops c.strict n) as = blockDiagList (ops c.strict n) as := by
      unfold blockDiagM
      split
      · exact absurd rfl (hn _ rfl)
      · rfl
    rw [e]
    exact blockDiagList_calm (c.ok n) (c.fineAll n) h0 hv h2 h1 hc
  exact ⟨r, h, C16_block_diag c (fun a ha => (hv a ha).valid) h2 (fun a e => ⟨h1 a e, hn a e⟩) h hx⟩

/-! ### The hypotheses are met -/

/- A grid with a batch of Diagonal matrices, a LowerTriangular, a Woodbury and a Zero matrix. -/
example : ∃ r, Returns Ex.cfg (fun B => blockM B [[Ex.Db, Ex.L], [Ex.Wb, Ex.Z]]) r ∧ r.Valid ∧
    IsBlock (btAll ([[Ex.Db, Ex.L], [Ex.Wb, Ex.Z]].flatten.map den)) [2, 2] [2, 2] ([[Ex.Db, Ex.L], [Ex.Wb, Ex.Z]].map fun row => row.map den) (den r) := by
  refine C53_block _ (by simp) (by simp) ?_ ?_ ?_ ?_ ?_
  · simp only [List.mem_cons, List.not_mem_nil, or_false, forall_eq_or_imp, forall_eq]
    exact ⟨⟨⟨⟨_, Ex.Db_wf⟩, trivial, by decide +kernel⟩, Ex.L_supported⟩, Ex.Wb_supported, Ex.supported (Ex.Z_wf _) trivial rfl⟩
  · simp only [List.mem_cons, List.not_mem_nil, or_false, forall_eq_or_imp, forall_eq]
    exact ⟨⟨trivial, trivial⟩, Ex.Wb_wo, trivial⟩
  · simp only [List.mem_cons, List.not_mem_nil, or_false, forall_eq_or_imp, forall_eq]
    exact ⟨⟨by decide +kernel, by decide +kernel⟩, by decide +kernel, by decide +kernel⟩
  · exact .cons (.cons ⟨rfl, rfl⟩ (.cons ⟨rfl, rfl⟩ .nil)) (.cons (.cons ⟨rfl, rfl⟩ (.cons ⟨rfl, rfl⟩ .nil)) .nil)
  · unfold BatchesCompat
    simp only [List.flatten_cons, List.flatten_nil, List.cons_append, List.nil_append, List.append_nil, List.mem_cons, List.not_mem_nil, or_false, forall_eq_or_imp, forall_eq]
    decide +kernel
example : ∃ r, Returns Ex.cfg (fun B => blockDiagM Ex.cfg.code B [Ex.Wb, Ex.L]) r ∧ r.Valid ∧ IsBlockDiag (btAll ([Ex.Wb, Ex.L].map den)) ([Ex.Wb, Ex.L].map den) (den r) := by
  refine C53_block_diag _ (by simp) ?_ ?_ ?_ (fun a e => by simp at e) ?_
  · simp only [List.mem_cons, List.not_mem_nil, or_false, forall_eq_or_imp, forall_eq]
    exact ⟨Ex.Wb_supported, Ex.L_supported⟩
  · simp only [List.mem_cons, List.not_mem_nil, or_false, forall_eq_or_imp, forall_eq]
    exact ⟨Ex.Wb_wo, trivial⟩
  · simp only [List.mem_cons, List.not_mem_nil, or_false, forall_eq_or_imp, forall_eq]
    exact ⟨by decide +kernel, by decide +kernel⟩
  · unfold BatchesCompat
    simp only [List.mem_cons, List.not_mem_nil, or_false, forall_eq_or_imp, forall_eq]
    decide +kernel

end Verif
