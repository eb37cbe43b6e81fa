/-
The tolerance in linear algebra (C46, C50): inverses, factors, solutions, log-determinants and roots do not consult it.
-/
import Verif.Props11
import Verif.Props09

set_option linter.unusedSectionVars false
set_option linter.unusedVariables false

namespace Verif

variable {K : Type} [Field K] [LinearOrder K] {α β : Type}

/-! ### Specification -/

/-- The factors of Woodbury matrices are numeric arrays or Dense matrices. -/
def Mat.plainWb : Mat K → Prop
  | .wb _ l r m => l.plain = true ∧ r.plain = true ∧ m.plainWb
  | .kron l r => l.plainWb ∧ r.plainWb
  | _ => True

/-- The call has the same outcome under the two configurations. -/
def LSameOutcome (c c' : Cfg K) (lin : LinEnv K) (f : Ops K → LOps K → E α) : Prop :=
  (∀ r, LReturns c lin f r ↔ LReturns c' lin f r) ∧ ∀ e, LRaises c lin f e ↔ LRaises c' lin f e

/-- The outcome of the call does not depend on the tolerance, and the tolerance tests in it, if any, are exact. -/
def LToleranceFree (c : Cfg K) (lin : LinEnv K) (f : Ops K → LOps K → E α) : Prop := (∀ tol : K, LSameOutcome c { c with tol := tol } lin f) ∧ LExact c lin f

/-! ### Two instances agree -/

theorem Sim.with {P Q : α → Prop} {x y : E α} (h : Sim P x y) (h' : Post Q x) : Sim (fun v => P v ∧ Q v) x y := ⟨h.1, h.2.and h'⟩

theorem wop_negativeM {κ : Bool} {a : Mat K} (h : a.wo κ) : Post (Mat.wo κ) (negativeM a) := by
  induction a generalizing κ with
  | num t => exact Post.ok trivial
  | zero bt r c => exact Post.ok trivial
  | dense t => exact Post.ok trivial
  | diag t => exact wop_mkDiag _ _
  | const t r c => exact wop_mkConst _ _ _
  | lt t => exact wop_mkLT _ _
  | ut t => exact wop_mkUT _ _
  | lr l r m _ _ im => exact (im h.2.2).bind fun m' hm => wop_mkLR h.1 h.2.1 hm
  | wb d l r m _ _ im =>
    obtain ⟨rfl, h1, h2, h3⟩ := h
    unfold negativeM
    refine Post.skip fun _ => (im h3).bind fun m' hm => ?_
    exact Post.skip fun _ => wop_mkWB h1 h2 hm
  | kron l r il ir => exact (il h.1).bind fun l' hl => Post.pure ⟨hl, h.2⟩
  | tiled => exact Post.error

/-- Woodbury matrices inside `a` are well formed, with plain factors. -/
def Mat.tame (S : Shp) : Mat K → Prop
  | .wb d l r m => (Mat.wb d l r m).WF S ∧ l.plain = true ∧ r.plain = true ∧ m.tame S
  | .kron l r => l.tame S ∧ r.tame S
  | _ => True

theorem Mat.plainWb.tame {S : Shp} {a : Mat K} (h : a.plainWb) (w : a.WF S) : a.tame S := by
  induction a with
  | wb d l r m _ _ im => exact ⟨w, h.1, h.2.1, im h.2.2 w.2.1.2.2⟩
  | kron l r il ir => exact ⟨il h.1 w.1.1, ir h.2 w.1.2⟩
  | _ => trivial

theorem Mat.wo.tame {S : Shp} {a : Mat K} (h : a.wo false) : a.tame S := by
  induction a with
  | wb d l r m => exact absurd h.1 (by simp)
  | kron l r il ir => exact ⟨il h.1, ir h.2⟩
  | _ => trivial

/-- Two instances of the functions of linear algebra agree. -/
structure LOps.Twin (L L' : LOps K) : Prop where
  inv : ∀ {S κ a}, Mat.wo κ a → Mat.tame S a → Sim (Mat.wo κ) (L.inv a) (L'.inv a)
  invDiag : ∀ d, Post (fun x => ∃ v, x = .diag v ∧ v.sh = d.sh) (L.inv (.diag d))
  pd : ∀ {S κ a}, Mat.wo κ a → Mat.tame S a → Sim (Mat.wo κ) (L.pdInv a) (L'.pdInv a)
  chol : ∀ {a}, Mat.wo true a → Sim (Mat.wo false) (L.chol a) (L'.chol a)
  solve : ∀ {a b}, Mat.wo true a → a.kind ≠ some .wb → Mat.wo false b → Sim (Mat.wo false) (L.solve a b) (L'.solve a b)
  cs : ∀ {a b}, Mat.wo false b → Sim (Mat.wo false) (L.cholSolve a b) (L'.cholSolve a b)
  ld : ∀ {S a}, Mat.wo true a → Mat.tame S a → Sim (fun _ => True) (L.logdet a) (L'.logdet a)
  root : ∀ {a}, Mat.wo true a → Sim (Mat.wo false) (L.root a) (L'.root a)

theorem lowSum_dense (k : Kind) : lowSum k .dense = false := by cases k <;> rfl
theorem addOut_dense (k k' : Kind) (h : k' ∈ addOut k .dense) : k' = .dense := by cases k <;> simpa [addOut] using h

section
variable {env env' : Env K} {lin : LinEnv K} {B C : Ops K} {L L' : LOps K} (hT : B.Twin env' C) (hL : L.Twin L') (hB : B.Ok) (hA : AddKinds env' B) (hM : MmKinds env' B)
include hT

theorem plain_wo {κ : Bool} {a : Mat K} (h : a.plain = true) : a.wo κ := by cases a <;> trivial

include hB hA hM in
/-- The sum in a Schur complement. -/
theorem sim_schur {S : Shp} {d v : Tensor K} {l r m : Mat K} {X Y : E (Mat K)} (w : (Mat.wb d l r m).WF S) (hv : v.sh = d.sh) (pl : l.plain = true) (pr : r.plain = true)
    (hx : Sim (Mat.wo true) X Y) :
    Sim (fun y : Mat K => ∃ t, y = .dense t) (do let second ← matmul3 B true false false r (.diag v) l; let x ← X; B.add x second)
      (do let second ← matmul3 C true false false r (.diag v) l; let x ← Y; C.add x second) := by
  obtain ⟨⟨d1, d2⟩, ⟨wl, wr, _⟩, ⟨kl, kr, _⟩, _⟩ := w
  have wv : (Mat.diag v : Mat K).WF S := ⟨by rw [Tensor.rank, hv]; exact d1, by rw [hv]; exact d2⟩
  refine ((sim_matmul3 hT (plain_wo hT pr) (wo_diag false v) (plain_wo hT pl)).with fun y hy => kind_second hM wl wr wv kl kr pl pr hB hy).bind fun y ⟨oy, ky⟩ => ?_
  have kc : kindC env' y = .dense := kindC_am ky
  refine hx.bind fun x ox => ?_
  refine ((hT.add ox oy.of (by rw [kc]; exact lowSum_dense _)).with (Q := fun z => z.kind = some .dense) fun z hz => ?_).mono fun z hz => ?_
  · obtain ⟨k, hk, e⟩ := hA x y (.inr (by cases y <;> simp_all [Mat.kind, Mat.isAM])) z hz
    rw [kc] at hk
    rw [e, addOut_dense _ _ hk]
  · obtain ⟨_, hz⟩ := hz
    cases z <;> first | exact ⟨_, rfl⟩ | (simp [Mat.kind] at hz)

theorem sim_subtract {v : Tensor K} {x : Mat K} (hx : x.wo true) (kx : x.kind = some .lr) :
    Sim (Mat.wo true) (subtractM env B (.diag v) x) (subtractM env C (.diag v) x) := by
  cases x with
  | lr l r m =>
    show Sim _ (negativeM (.lr l r m) >>= fun y => B.add (.diag v) y) (negativeM (.lr l r m) >>= fun y => C.add (.diag v) y)
    have hn : Post (fun y : Mat K => y.wo true ∧ y.kind = some .lr) (negativeM (.lr l r m)) :=
      (wop_negativeM (a := .lr l r m) hx).and fun y hy => by
        simp only [negativeM, bind_ok_iff] at hy
        obtain ⟨_, _, hy⟩ := hy
        exact kind_mkLR _ hy
    exact Sim.on hn fun y hy => hT.add' (wo_diag true v) hy.1 rfl hy.2 rfl
  | _ => simp [Mat.kind] at kx

include hL

/-- The Schur complement, by either way of inverting the middle factor. -/
theorem sim_schurWB (hB : B.Ok) (hA : AddKinds env' B) (hM : MmKinds env' B) {S : Shp} {d : Tensor K} {l r m : Mat K} {X Y : E (Mat K)} (w : (Mat.wb d l r m).WF S)
    (pl : l.plain = true) (pr : r.plain = true) (hm : Sim (Mat.wo true) X Y) :
    Sim (fun y : Mat K => ∃ t, y = .dense t)
      (do
        let di ← L.inv (.diag d)
        let second ← matmul3 B true false false r di l
        B.add (← X) second)
      (do
        let di ← L'.inv (.diag d)
        let second ← matmul3 C true false false r di l
        C.add (← Y) second) := by
  refine ((hL.inv (S := S) (wo_diag false d) trivial).with (hL.invDiag d)).bind fun di hdi' => ?_
  obtain ⟨_, v, rfl, hv⟩ := hdi'
  exact sim_schur hT hB hA hM w hv pl pr hm

/-- The inverse of a Woodbury matrix, by either way of inverting the parts. -/
theorem sim_invWB {d : Tensor K} {l r : Mat K} {f g : Mat K → E (Mat K)} {X Y : E (Mat K)} (pl : l.plain = true) (pr : r.plain = true)
    (hs : Sim (fun y : Mat K => ∃ t, y = .dense t) X Y) (hd : ∀ t, Sim (Mat.wo false) (f (.dense t)) (g (.dense t))) :
    Sim (Mat.wo true)
      (do
        let di ← L.inv (.diag d)
        let dl ← B.matmul false false di l
        let dr ← B.matmul false false di r
        let si ← f (← X)
        subtractM env B di (← mkLR dl dr si))
      (do
        let di ← L'.inv (.diag d)
        let dl ← C.matmul false false di l
        let dr ← C.matmul false false di r
        let si ← g (← Y)
        subtractM env C di (← mkLR dl dr si)) := by
  refine ((hL.inv (S := []) (wo_diag false d) trivial).with (hL.invDiag d)).bind fun di hdi' => ?_
  obtain ⟨_, v, rfl, hv⟩ := hdi'
  refine (hT.matmul (wo_diag false v) (plain_wo hT pl)).bind fun dl ol => ?_
  refine (hT.matmul (wo_diag false v) (plain_wo hT pr)).bind fun dr or => ?_
  refine hs.bind fun y hy => ?_
  obtain ⟨t, rfl⟩ := hy
  refine (hd t).bind fun si os => ?_
  exact Sim.on ((wop_mkLR (κ := true) ol or os).and fun x hx => kind_mkLR _ hx) fun x hx => sim_subtract hT hx.1 hx.2

theorem sim_stepInv (hB : B.Ok) (hA : AddKinds env' B) (hM : MmKinds env' B) {S : Shp} {κ : Bool} {a : Mat K} (wo : a.wo κ) (ta : a.tame S) :
    Sim (Mat.wo κ) (stepInv env lin B L a) (stepInv env lin C L' a) := by
  cases a with
  | num t => exact Sim.skip fun _ => Sim.pure trivial
  | dense t => exact Sim.skip fun _ => Sim.pure trivial
  | diag d => exact Sim.skip fun _ => Sim.same (wop_mkDiag _ _)
  | wb d l r m =>
    obtain ⟨rfl, _, _, om⟩ := wo
    exact sim_invWB hT hL ta.2.1 ta.2.2.1 (sim_schurWB hT hL hB hA hM ta.1 ta.2.1 ta.2.2.1 (hL.inv om.of ta.2.2.2)) fun t => hL.inv (S := S) (wo_dense false t) trivial
  | kron l r => exact (hL.inv wo.1 ta.1).bind fun _ hl => (hL.inv wo.2 ta.2).bind fun _ hr => Sim.pure ⟨hl, hr⟩
  | _ => exact Sim.error

theorem sim_stepPdInv (hB : B.Ok) (hA : AddKinds env' B) (hM : MmKinds env' B) {S : Shp} {κ : Bool} {a : Mat K} (wo : a.wo κ) (ta : a.tame S) :
    Sim (Mat.wo κ) (stepPdInv env B L a) (stepPdInv env C L' a) := by
  have hch : ∀ a' : Mat K, a'.wo true → Sim (Mat.wo κ) (do
      let ch ← L.chol a'
      let id ← B.dense (← eyeM a')
      L.cholSolve ch (.num id)) (do
      let ch ← L'.chol a'
      let id ← C.dense (← eyeM a')
      L'.cholSolve ch (.num id)) := fun a' wo' => by
    refine (hL.chol wo').bind fun ch _ => ?_
    refine Sim.on (P := Mat.wo true) ?_ fun e he => ?_
    · unfold eyeM
      exact Post.skip fun _ => Post.skip fun _ => wop_fillDiag _ _ _
    · exact (hT.dense he).bind fun id _ => (hL.cs (wo_num false id)).mono fun _ h => h.of
  cases a with
  | diag d => exact hL.inv (S := S) wo trivial
  | wb d l r m =>
    obtain ⟨rfl, _, _, om⟩ := wo
    exact sim_invWB hT hL ta.2.1 ta.2.2.1 (sim_schurWB hT hL hB hA hM ta.1 ta.2.1 ta.2.2.1 (hL.pd om.of ta.2.2.2)) fun t => hL.pd (S := S) (wo_dense false t) trivial
  | kron l r => exact (hL.pd wo.1 ta.1).bind fun _ hl => (hL.pd wo.2 ta.2).bind fun _ hr => Sim.pure ⟨hl, hr⟩
  | _ => exact hch _ (wo_convertAM env wo.up)

theorem sim_stepChol {a : Mat K} (wo : a.wo true) : Sim (Mat.wo false) (stepChol lin B L a) (stepChol lin C L' a) := by
  cases a with
  | num t => exact Sim.skip fun _ => Sim.pure trivial
  | zero bt r c => exact Sim.skip fun _ => Sim.pure trivial
  | dense t => exact Sim.skip fun _ => Sim.skip fun _ => Sim.same (wop_mkLT _ _)
  | diag d => exact Sim.skip fun _ => Sim.skip fun _ => Sim.same (wop_mkDiag _ _)
  | const t r c => exact Sim.skip fun _ => Sim.skip fun _ => Sim.skip fun _ => Sim.skip fun _ => Sim.same (wop_mkConst _ _ _)
  | lr l r m => exact Sim.skip fun _ => (hL.chol wo.2.2.of).bind fun x hx => hT.matmul wo.1 hx
  | wb d l r m => exact (hT.dense wo).bind fun _ _ => Sim.skip fun _ => Sim.same (wop_mkLT _ _)
  | kron l r => exact (hL.chol wo.1).bind fun _ hl => (hL.chol wo.2).bind fun _ hr => Sim.pure ⟨hl, hr⟩
  | _ => exact Sim.error

theorem sim_solveTri (lower : Bool) (t : Tensor K) {κ : Bool} {b : Mat K} (hb : b.wo true) : Sim (Mat.wo κ) (solveTri lin B lower t b) (solveTri lin C lower t b) := by
  unfold solveTri
  exact Sim.on (wop_alignBatch2 (wo_num true t) hb) fun p hp => (hT.dense hp.1).bind fun _ _ => (hT.dense hp.2).bind fun _ _ => Sim.skip fun _ => Sim.pure trivial

theorem sim_solveDense {κ : Bool} {a b : Mat K} (ha : a.wo true) (hb : b.wo true) : Sim (Mat.wo κ) (solveDense lin B a b) (solveDense lin C a b) := by
  unfold solveDense
  exact Sim.on (wop_alignBatch2 ha hb) fun p hp => (hT.dense hp.1).bind fun _ _ => (hT.dense hp.2).bind fun _ _ => Sim.skip fun _ => Sim.pure trivial

theorem sim_stepSolve {a b : Mat K} (wo : a.wo true) (ka : a.kind ≠ some .wb) (wb : b.wo false) : Sim (Mat.wo false) (stepSolve env lin B L a b) (stepSolve env lin C L' a b) := by
  have e : ∀ a' b' : Mat K, a'.wo true → a'.kind ≠ some .wb → b'.wo false →
      Sim (Mat.wo false) (match a', b' with
        | _, .zero bt r c => .ok (.zero bt r c)
        | .diag d, b => do B.matmul false false (← L.inv (.diag d)) b
        | .lt t, b => solveTri lin B true t b
        | .ut t, b => solveTri lin B false t b
        | .wb d l r m, b => do B.matmul false false (← L.inv (.wb d l r m)) b
        | a, b => solveDense lin B a b) (match a', b' with
        | _, .zero bt r c => .ok (.zero bt r c)
        | .diag d, b => do C.matmul false false (← L'.inv (.diag d)) b
        | .lt t, b => solveTri lin C true t b
        | .ut t, b => solveTri lin C false t b
        | .wb d l r m, b => do C.matmul false false (← L'.inv (.wb d l r m)) b
        | a, b => solveDense lin C a b) := by
    intro a' b' wa ka wb
    split
    · exact Sim.same (Post.ok trivial)
    · exact (hL.inv (S := []) (wo_diag false _) trivial).bind fun x hx => hT.matmul hx wb
    · exact sim_solveTri hT hL _ _ wb.of
    · exact sim_solveTri hT hL _ _ wb.of
    · exact absurd rfl ka
    · exact sim_solveDense hT hL wa wb.of
  unfold stepSolve
  split
  · exact Sim.skip fun _ => Sim.pure trivial
  · refine e _ _ (wo_convertAM env wo) ?_ (wo_convertAM env wb)
    cases a <;> first | exact ka | skip
    simp only [convertAM]
    split_ifs <;> simp [Mat.kind, mkDense]

theorem sim_stepCholSolve {a b : Mat K} (wb : b.wo false) : Sim (Mat.wo false) (stepCholSolve env lin L a b) (stepCholSolve env lin L' a b) := by
  have e : ∀ a : Mat K, a.wo true → Post (fun x : Mat K => x.wo true ∧ x.kind ≠ some .wb) (transposeM a) → a.kind ≠ some .wb → ∀ b : Mat K, b.wo false →
      Sim (Mat.wo false) (cholSolveTri L a b) (cholSolveTri L' a b) := by
    intro a wa hx ka b wb
    unfold cholSolveTri
    exact (hL.solve wa ka wb).bind fun y hy => Sim.on hx fun x hx' => hL.solve hx'.1 hx'.2 hy
  have hb := wo_convertAM env wb
  unfold stepCholSolve
  split
  · exact Sim.same (Post.skip fun _ => Post.skip fun _ => Post.pure trivial)
  · split
    · exact e _ (wo_diag _ _) (Post.ok ⟨wo_diag _ _, by simp [Mat.kind]⟩) (by simp [Mat.kind]) _ hb
    · exact e _ (wo_lt _ _) (Post.skip fun _ => Post.pure ⟨trivial, by simp [Mat.kind]⟩) (by simp [Mat.kind]) _ hb
    · exact e _ (wo_ut _ _) (Post.skip fun _ => Post.pure ⟨trivial, by simp [Mat.kind]⟩) (by simp [Mat.kind]) _ hb
    · rename_i h1 h2
      rw [h2] at hb
      exact (hL.cs hb.1).bind fun _ hl => (hL.cs hb.2).bind fun _ hr => Sim.pure ⟨hl, hr⟩
    · exact Sim.error

theorem sim_logdetTri {a : Mat K} (wo : a.wo true) : Sim (fun _ => True) (logdetTri lin B a) (logdetTri lin C a) := by
  unfold logdetTri
  exact (hT.diag wo).bind fun _ _ => Sim.refl _

theorem sim_stepLogdet (hB : B.Ok) (hA : AddKinds env' B) (hM : MmKinds env' B) {S : Shp} {a : Mat K} (wo : a.wo true) (ta : a.tame S) :
    Sim (fun _ => True) (stepLogdet lin B L a) (stepLogdet lin C L' a) := by
  cases a with
  | num t => exact Sim.refl _
  | diag d => exact sim_logdetTri hT hL wo
  | lt t => exact sim_logdetTri hT hL wo
  | ut t => exact sim_logdetTri hT hL wo
  | wb d l r m =>
    obtain ⟨_, _, _, om⟩ := wo
    refine (hL.ld (S := S) (wo_diag true d) trivial).bind fun x _ => (hL.ld om.of ta.2.2.2).bind fun y _ => ?_
    refine Sim.bind (P := fun z : Mat K => ∃ t, z = .dense t) ?_ fun z hz => ?_
    · exact sim_schurWB hT hL hB hA hM ta.1 ta.2.1 ta.2.2.1 (hL.pd om.of ta.2.2.2)
    · obtain ⟨t, rfl⟩ := hz
      exact (hL.ld (S := S) (wo_dense true t) trivial).bind fun z _ => Sim.refl _
  | kron l r =>
    refine Sim.skip fun _ => Sim.skip fun _ => Sim.skip fun _ => Sim.skip fun _ => ?_
    exact (hL.ld wo.1 ta.1).bind fun _ _ => Sim.skip fun _ => (hL.ld wo.2 ta.2).bind fun _ _ => Sim.refl _
  | _ => exact (hL.chol wo).bind fun x hx => (hL.ld (S := S) hx.up hx.tame).bind fun _ _ => Sim.refl _

theorem sim_stepRoot {a : Mat K} (wo : a.wo true) : Sim (Mat.wo false) (stepRoot lin B L a) (stepRoot lin C L' a) := by
  have hn : ∀ t, Sim (Mat.wo false) (do return mkDense (← B.dense (← L.root (.num t)))) (do return mkDense (← C.dense (← L'.root (.num t)))) := fun t =>
    (hL.root (wo_num true t)).bind fun x hx => (hT.dense hx.up).bind fun _ _ => Sim.pure trivial
  cases a with
  | num t => exact Sim.skip fun _ => Sim.skip fun _ => Sim.skip fun _ => sim_matmul3 hT trivial trivial trivial
  | zero bt r c => exact Sim.skip fun _ => Sim.pure trivial
  | dense t => exact hn t
  | diag d => exact Sim.skip fun _ => hL.chol wo
  | const t r c => exact Sim.skip fun _ => hL.chol wo
  | lr l r m => exact (hT.dense wo).bind fun x _ => hn x
  | wb d l r m => exact (hT.dense wo).bind fun x _ => hn x
  | kron l r => exact (hL.root wo.1).bind fun _ hl => (hL.root wo.2).bind fun _ hr => Sim.pure ⟨hl, hr⟩
  | _ => exact Sim.error

end

theorem lops_twin {env env' : Env K} {lin : LinEnv K} {B C : Ops K} (hT : B.Twin env' C) (hB : B.Ok) (hA : AddKinds env' B) (hM : MmKinds env' B) (n : ℕ) :
    (lops env lin B n).Twin (lops env lin C n) := by
  induction n with
  | zero =>
    exact ⟨fun _ _ => Sim.error, fun _ => Post.error, fun _ _ => Sim.error, fun _ => Sim.error, fun _ _ _ => Sim.error, fun _ => Sim.error, fun _ _ => Sim.error, fun _ => Sim.error⟩
  | succ n ih =>
    refine ⟨sim_stepInv hT ih hB hA hM, fun d x h => ?_, sim_stepPdInv hT ih hB hA hM, sim_stepChol hT ih, sim_stepSolve hT ih, sim_stepCholSolve hT ih, sim_stepLogdet hT ih hB hA hM,
      sim_stepRoot hT ih⟩
    change stepInv env lin B (lops env lin B n) (.diag d) = .ok x at h
    simp only [stepInv, bind_ok_iff] at h
    obtain ⟨u, hu, h⟩ := h
    obtain ⟨_, _, rfl⟩ := nDiv_ok hu
    obtain ⟨_, rfl⟩ := mkDiag_ok.1 h
    exact ⟨_, rfl, recip_sh d⟩

/-- The environment enters the functions of linear algebra only through `isNumber`. -/
theorem lops_env {env env' : Env K} (h : env.isNumber = env'.isNumber) (lin : LinEnv K) (B : Ops K) (m : ℕ) : lops env lin B m = lops env' lin B m := by
  have e : convertAM env = convertAM env' := funext (convertAM_congr h)
  have es : subtractM env = subtractM env' := by funext B a b; unfold subtractM; rw [e]
  induction m with
  | zero => rfl
  | succ m ih =>
    show lstep env lin B (lops env lin B m) = lstep env' lin B (lops env' lin B m)
    rw [ih]
    have h1 : ∀ L, stepInv env lin B L = stepInv env' lin B L := fun L => by
      have : invWB env B L = invWB env' B L := by unfold invWB; rw [es]
      unfold stepInv; rw [this]
    have h2 : ∀ L, stepPdInv env B L = stepPdInv env' B L := fun L => by
      have : pdInvWB env B L = pdInvWB env' B L := by unfold pdInvWB; rw [es]
      unfold stepPdInv; rw [this, e]
    have h3 : ∀ L, stepSolve env lin B L = stepSolve env' lin B L := fun L => by unfold stepSolve; rw [e]
    have h4 : ∀ L, stepCholSolve env lin L = stepCholSolve env' lin L := fun L => by unfold stepCholSolve; rw [e]
    unfold lstep
    rw [h1, h2, h3, h4]

theorem LToleranceFree.of {c : Cfg K} {lin : LinEnv K} {f : Ops K → LOps K → E α}
    (h : ∀ env' : Env K, c.isNumber = env'.isNumber → ∀ n m, f (ops c.strict n) (lops c.code lin (ops c.strict n) m) = f (ops env' n) (lops c.code lin (ops env' n) m)) :
    LToleranceFree c lin f := by
  have e : ∀ tol n m, f (ops (Cfg.code { c with tol := tol }) n) (lops (Cfg.code { c with tol := tol }) lin (ops (Cfg.code { c with tol := tol }) n) m) =
      f (ops c.code n) (lops c.code lin (ops c.code n) m) := fun tol n m => by
    rw [lops_env (env := Cfg.code { c with tol := tol }) (env' := c.code) rfl, ← h (Cfg.code { c with tol := tol }) rfl n m, h c.code rfl n m]
  refine ⟨fun tol => ⟨fun r => exists_congr fun m => exists_congr fun n => ?_, fun e' => exists_congr fun m => and_congr Iff.rfl (exists_congr fun n => ?_)⟩,
    fun m n => h c.code rfl n m⟩
  · show f _ _ = _ ↔ f _ _ = _
    rw [e tol n m]
  · show f _ _ = _ ↔ f _ _ = _
    rw [e tol n m]

theorem Cfg.ltwin (c : Cfg K) (lin : LinEnv K) {env' : Env K} (h : c.isNumber = env'.isNumber) (n m : ℕ) :
    (lops c.code lin (ops c.strict n) m).Twin (lops c.code lin (ops env' n) m) :=
  lops_twin (ops_twin (env := c.strict) h n) (c.ok n) (ops_addKinds c.strict n) (ops_mmKinds c.strict n) m

/-! ### C46 for linear algebra -/

/-- C46.  `B.inv` does not depend on the tolerance, -/
theorem C46_inv (c : Cfg K) (lin : LinEnv K) {a : Mat K} (ha : a.Valid) (hw : a.wo true) (hp : a.plainWb) : LToleranceFree c lin fun _ L => L.inv a :=
  .of fun _ h n m => ((c.ltwin lin h n m).inv hw (hp.tame ha.own)).1
/-- C46.  nor does `B.pd_inv`, -/
theorem C46_pd_inv (c : Cfg K) (lin : LinEnv K) {a : Mat K} (ha : a.Valid) (hw : a.wo true) (hp : a.plainWb) : LToleranceFree c lin fun _ L => L.pdInv a :=
  .of fun _ h n m => ((c.ltwin lin h n m).pd hw (hp.tame ha.own)).1
/-- C46.  `B.cholesky`, -/
theorem C46_cholesky (c : Cfg K) (lin : LinEnv K) {a : Mat K} (hw : a.wo true) : LToleranceFree c lin fun _ L => L.chol a :=
  .of fun _ h n m => ((c.ltwin lin h n m).chol hw).1
/-- C46.  `B.cholesky_solve`, -/
theorem C46_cholesky_solve (c : Cfg K) (lin : LinEnv K) (a : Mat K) {b : Mat K} (hb : b.wo false) : LToleranceFree c lin fun _ L => L.cholSolve a b :=
  .of fun _ h n m => ((c.ltwin lin h n m).cs hb).1
/-- C46.  `B.logdet`, -/
theorem C46_logdet (c : Cfg K) (lin : LinEnv K) {a : Mat K} (ha : a.Valid) (hw : a.wo true) (hp : a.plainWb) : LToleranceFree c lin fun _ L => L.logdet a :=
  .of fun _ h n m => ((c.ltwin lin h n m).ld hw (hp.tame ha.own)).1
/-- C46.  `B.root`, -/
theorem C46_root (c : Cfg K) (lin : LinEnv K) {a : Mat K} (hw : a.wo true) : LToleranceFree c lin fun _ L => L.root a :=
  .of fun _ h n m => ((c.ltwin lin h n m).root hw).1
/-- C46.  nor `B.solve`, except with a Woodbury matrix. -/
theorem C46_solve (c : Cfg K) (lin : LinEnv K) {a b : Mat K} (hw : a.wo true) (ha : a.kind ≠ some .wb) (hb : b.wo false) : LToleranceFree c lin fun _ L => L.solve a b :=
  .of fun _ h n m => ((c.ltwin lin h n m).solve hw ha hb).1

theorem kind_invWB {env env' : Env K} {lin : LinEnv K} {B : Ops K} {L : LOps K} (hA : AddKinds env' B) (hD : ∀ d, Post (fun x => ∃ v, x = .diag v ∧ v.sh = d.sh) (L.inv (.diag d)))
    {d : Tensor K} {l r m : Mat K} : Post (fun x => x.kind = some .wb) (stepInv env lin B L (.wb d l r m)) := by
  show Post _ (invWB env B L d l r m)
  unfold invWB
  refine (hD d).bind fun di hdi => ?_
  obtain ⟨v, rfl, _⟩ := hdi
  refine Post.skip fun dl => Post.skip fun dr => Post.skip fun s => Post.skip fun si => ?_
  exact (post_mkLR dl dr si).bind fun x hx y hy => by
    subst hx
    exact kind_subtract_lr hA hy

theorem stepSolve_wb {env : Env K} {lin : LinEnv K} {B : Ops K} {L : LOps K} {d : Tensor K} {l r m b : Mat K} :
    stepSolve env lin B L (.wb d l r m) b = (match convertAM env b with
      | .zero bt r c => .ok (.zero bt r c)
      | b => L.inv (.wb d l r m) >>= fun x => B.matmul false false x b) := by
  cases b <;> first | rfl | skip
  rename_i t
  show (match Mat.wb d l r m, convertAM env (.num t) with
      | _, .zero bt r c => (.ok (.zero bt r c) : E (Mat K))
      | .diag d, b => do B.matmul false false (← L.inv (.diag d)) b
      | .lt t, b => solveTri lin B true t b
      | .ut t, b => solveTri lin B false t b
      | .wb d l r m, b => do B.matmul false false (← L.inv (.wb d l r m)) b
      | a, b => solveDense lin B a b) = _
  generalize convertAM env (.num t) = b'
  cases b' <;> rfl

/-- C46.  `B.solve` with a Woodbury matrix does not depend on the tolerance either, unless the right-hand side is a Woodbury, LowRank or Constant matrix. -/
theorem C46_solve_woodbury (c : Cfg K) (lin : LinEnv K) {d : Tensor K} {l r m b : Mat K} (ha : (Mat.wb d l r m).Valid) (hw : (Mat.wb d l r m).wo true) (hp : (Mat.wb d l r m).plainWb)
    (vb : b.Valid) (hb : b.woTop) (hl : lowProd .wb (classOf c b) = false) : LToleranceFree c lin fun _ L => L.solve (.wb d l r m) b := by
  refine .of fun env' h n k => ?_
  cases k with
  | zero => rfl
  | succ k =>
    show stepSolve c.code lin (ops c.strict n) (lops c.code lin (ops c.strict n) k) (.wb d l r m) b = stepSolve c.code lin (ops env' n) (lops c.code lin (ops env' n) k) (.wb d l r m) b
    have hT := c.ltwin lin h n k
    have hI := (hT.inv hw (hp.tame ha.own)).with (Q := fun x => x.kind = some .wb) (by
      cases k with
      | zero => exact Post.error
      | succ k => exact kind_invWB (lin := lin) (ops_addKinds c.strict n) (c.ltwin lin h n k).invDiag)
    have hm : ∀ b' : Mat K, b'.woTop → TriRk b' → lowProd .wb (kindC c.strict b') = false →
        (do (ops c.strict n).matmul false false (← (lops c.code lin (ops c.strict n) k).inv (.wb d l r m)) b') =
        (do (ops env' n).matmul false false (← (lops c.code lin (ops env' n) k).inv (.wb d l r m)) b') := fun b' w t hl => by
      refine (hI.bind (Q := fun _ => True) fun x hx => ⟨?_, Post.any _⟩).1
      obtain ⟨ox, kx⟩ := hx
      refine ops_twin_matmul (env := c.strict) h n ?_ w ?_ t (by rw [kindC_am kx]; exact hl)
      · cases x <;> simp [Mat.kind] at kx
        exact ox.2
      · cases x <;> simp [Mat.kind] at kx
        trivial
    have hb' := woTop_convertAM c.code hb
    have tb' := triRk_convert (env := c.code) (triRk_of_valid vb)
    have kb' : lowProd .wb (kindC c.strict (convertAM c.code b)) = false := by
      rw [kindC_am (kind_convertAM c.code b), classOf_eq]
      exact hl
    rw [stepSolve_wb, stepSolve_wb]
    generalize convertAM c.code b = b' at hb' tb' kb'
    cases b' <;> first | rfl | exact hm _ hb' tb' kb'

end Verif
