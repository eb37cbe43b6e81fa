/-
Multiple dispatch: the methods as they are registered in `ops/add.py`, `ops/multiply.py` and `ops/matmul.py`, and plum's resolution (C31).
-/
import Verif.OpsCore

namespace Verif

/-- The types in the signatures: `AbstractMatrix` or one of its ten subclasses, which are not subclasses of each other
(`matrix.py` 103, `constant.py` 11, 55, `diagonal.py` 14, `triangular.py` 11, 47, `lowrank.py` 11, `woodbury.py` 16, `kronecker.py` 10,
`tiledblocks.py` 16). -/
inductive Ty where
  | am
  | cls (k : Kind)
  deriving DecidableEq, Repr

/-- Subclass relation. -/
def Ty.le : Ty → Ty → Bool
  | _, .am => true
  | .am, .cls _ => false
  | .cls k, .cls l => k == l

/-- A registered method: signature, precedence, implementation. -/
structure Method (M : Type) where
  ta : Ty
  tb : Ty
  prec : ℕ
  impl : M
  deriving DecidableEq, Repr

variable {M : Type}

/-- Is the signature of `m` at least as specific as that of `m'`? -/
def Method.le (m m' : Method M) : Bool := m.ta.le m'.ta && m.tb.le m'.tb

/-- The applicable methods such that no other applicable method is strictly more specific: plum's candidates. -/
def candidates (t : List (Method M)) (a b : Ty) : List (Method M) :=
  let app := t.filter fun m => a.le m.ta && b.le m.tb
  app.filter fun m => app.all fun m' => !(m'.le m) || m.le m'

/-- plum's resolution: the most specific applicable method; several of them are distinguished by their precedence. -/
def resolve (t : List (Method M)) (a b : Ty) : E M :=
  match candidates t a b with
  | [] => .error .notFound
  | [m] => .ok m.impl
  | m :: ms =>
    let top := (m :: ms).foldl (fun p x => max p x.prec) 0
    match (m :: ms).filter fun x => x.prec == top with
    | [x] => .ok x.impl
    | _ => .error .ambiguous

/-- What the modules execute when they are imported. -/
inductive Reg (M : Type) where
  /-- `@B.dispatch(precedence=prec) def f(a: ta, b: tb)`. -/
  | def' (ta tb : Ty) (prec : ℕ) (impl : M)
  /-- `redirect(f, (fa, fb), (ta, tb), reverse=rev)`, `util.py` 47-61. -/
  | redirect (fa fb ta tb : Ty) (rev : Bool)

/-- Register a method, replacing one with the same signature. -/
def addMethod (t : List (Method M)) (m : Method M) : List (Method M) :=
  (t.filter fun x => !(x.ta == m.ta && x.tb == m.tb)) ++ [m]

/-- Execute one registration.  A redirection resolves its target in the table as it is at that moment. -/
def register (t : List (Method M)) : Reg M → List (Method M)
  | .def' ta tb p i => addMethod t ⟨ta, tb, p, i⟩
  | .redirect fa fb ta tb rev =>
    let t1 := match resolve t ta tb with
      | .ok i => addMethod t ⟨fa, fb, 0, i⟩
      | .error _ => t
    if rev then
      match resolve t1 tb ta with
      | .ok i => addMethod t1 ⟨fb, fa, 0, i⟩
      | .error _ => t1
    else t1

/-- The table after importing a module. -/
def table (l : List (Reg M)) : List (Method M) := l.foldl register []

open Reg in
/-- `ops/add.py`, in order.  `p q` are the precedences generated by the two calls of `proven()`. -/
def addRegs (p q : ℕ) : List (Reg AddM) := [
  def' .am (.cls .zero) p .amZero,  -- 33
  def' (.cls .zero) .am q .zeroAm,  -- 39
  def' .am .am 0 .amAm,  -- 48
  def' (.cls .dense) (.cls .dense) 0 .denseDense,  -- 57
  def' (.cls .diag) (.cls .diag) 0 .diagDiag,  -- 65
  def' (.cls .const) (.cls .const) 0 .constConst,  -- 73
  def' (.cls .const) .am 0 .constAm,  -- 79
  def' (.cls .const) (.cls .diag) 0 .constDiag,  -- 96
  def' .am (.cls .const) 0 .swap,  -- 103
  def' (.cls .diag) (.cls .const) 0 .swap,  -- 104
  def' (.cls .lt) (.cls .lt) 0 .ltLt,  -- 110
  def' (.cls .lt) (.cls .diag) 0 .ltDiag,  -- 115
  def' (.cls .diag) (.cls .lt) 0 .swap,  -- 121
  def' (.cls .ut) (.cls .ut) 0 .utUt,  -- 127
  def' (.cls .ut) (.cls .lt) 0 .utLt,  -- 132
  def' (.cls .ut) (.cls .diag) 0 .utDiag,  -- 137
  def' (.cls .lt) (.cls .ut) 0 .swap,  -- 142
  def' (.cls .diag) (.cls .ut) 0 .swap,  -- 143
  def' (.cls .lr) (.cls .lr) 0 .lrLr,  -- 163
  def' (.cls .lr) (.cls .const) 0 .lrConst,  -- 204
  def' (.cls .const) (.cls .lr) 0 .swap,  -- 210
  def' (.cls .lr) (.cls .diag) 0 .lrDiag,  -- 215
  def' (.cls .diag) (.cls .lr) 0 .diagLr,  -- 220
  def' (.cls .wb) (.cls .wb) 0 .wbWb,  -- 228
  def' (.cls .wb) (.cls .diag) 0 .wbDiag,  -- 233
  def' (.cls .diag) (.cls .wb) 0 .swap,  -- 238
  def' (.cls .wb) (.cls .const) 0 .wbAny,  -- 243
  def' (.cls .wb) (.cls .lr) 0 .wbAny,  -- 243
  def' (.cls .const) (.cls .wb) 0 .swap,  -- 248
  def' (.cls .lr) (.cls .wb) 0 .swap]  -- 248

open Reg in
/-- `ops/multiply.py`, in order. -/
def mulRegs (p q : ℕ) : List (Reg MulM) := [
  def' .am (.cls .zero) p .amZero,  -- 28
  def' (.cls .zero) .am q .zeroAm,  -- 34
  def' .am .am 0 .amAm,  -- 43
  def' (.cls .dense) (.cls .dense) 0 .denseDense,  -- 52
  def' (.cls .diag) (.cls .diag) 0 .diagDiag,  -- 60
  def' (.cls .diag) .am 0 .diagAm,  -- 65
  def' .am (.cls .diag) 0 .swap,  -- 83
  def' (.cls .const) (.cls .const) 0 .constConst,  -- 89
  def' (.cls .const) .am 0 .constAm,  -- 95
  def' (.cls .const) (.cls .diag) 0 .constDiag,  -- 113
  def' .am (.cls .const) 0 .swap,  -- 121
  def' (.cls .diag) (.cls .const) 0 .swap,  -- 122
  def' (.cls .lt) (.cls .lt) 0 .ltLt,  -- 128
  def' (.cls .lt) .am 0 .ltAm,  -- 133
  def' (.cls .lt) (.cls .const) 0 .ltConst,  -- 139
  def' .am (.cls .lt) 0 .swap,  -- 146
  def' (.cls .const) (.cls .lt) 0 .swap,  -- 147
  redirect (.cls .lt) (.cls .diag) .am (.cls .diag) true,  -- 149
  def' (.cls .ut) (.cls .ut) 0 .utUt,  -- 155
  def' (.cls .ut) (.cls .lt) 0 .utLt,  -- 160
  def' (.cls .ut) .am 0 .utAm,  -- 165
  def' (.cls .ut) (.cls .const) 0 .utConst,  -- 171
  def' (.cls .lt) (.cls .ut) 0 .swap,  -- 178
  def' .am (.cls .ut) 0 .swap,  -- 179
  def' (.cls .const) (.cls .ut) 0 .swap,  -- 180
  redirect (.cls .ut) (.cls .diag) .am (.cls .diag) true,  -- 182
  def' (.cls .lr) (.cls .lr) 0 .lrLr,  -- 188
  def' (.cls .const) (.cls .lr) 0 .constLr,  -- 231
  def' (.cls .lr) (.cls .const) 0 .swap,  -- 244
  def' (.cls .wb) .am 0 .wbAm,  -- 252
  def' .am (.cls .wb) 0 .swap,  -- 258
  redirect (.cls .wb) (.cls .wb) (.cls .wb) .am false,  -- 263
  redirect (.cls .wb) (.cls .diag) .am (.cls .diag) true,  -- 264
  redirect (.cls .wb) (.cls .const) (.cls .wb) .am true,  -- 265
  redirect (.cls .wb) (.cls .lt) (.cls .wb) .am true,  -- 266
  redirect (.cls .wb) (.cls .ut) (.cls .wb) .am true,  -- 267
  def' (.cls .kron) (.cls .kron) 0 .kronKron,  -- 273
  def' (.cls .const) (.cls .kron) 0 .constKron,  -- 284
  def' (.cls .kron) (.cls .const) 0 .swap]  -- 295

open Reg in
/-- `ops/matmul.py`, in order (the two-factor methods; the keyword arguments `tr_a`, `tr_b` do not take part in dispatch). -/
def mmRegs (p q : ℕ) : List (Reg MmM) := [
  def' .am (.cls .zero) p .amZero,  -- 43
  def' (.cls .zero) .am q .zeroAm,  -- 51
  def' (.cls .dense) (.cls .dense) 0 .denseDense,  -- 80
  def' (.cls .diag) (.cls .diag) 0 .diagDiag,  -- 88
  def' (.cls .diag) .am 0 .diagAm,  -- 94
  def' .am (.cls .diag) 0 .amDiag,  -- 100
  def' (.cls .const) (.cls .const) 0 .constConst,  -- 109
  def' (.cls .const) .am 0 .constAm,  -- 117
  def' .am (.cls .const) 0 .amConst,  -- 129
  redirect (.cls .const) (.cls .diag) (.cls .const) .am true,  -- 141
  def' (.cls .lt) (.cls .lt) 0 .ltLt,  -- 147
  def' (.cls .lt) .am 0 .ltAm,  -- 157
  def' .am (.cls .lt) 0 .amLt,  -- 169
  def' (.cls .lt) (.cls .diag) 0 .ltDiag,  -- 181
  def' (.cls .diag) (.cls .lt) 0 .diagLt,  -- 189
  redirect (.cls .lt) (.cls .const) .am (.cls .const) true,  -- 197
  def' (.cls .ut) (.cls .ut) 0 .utUt,  -- 203
  def' (.cls .ut) (.cls .diag) 0 .utDiag,  -- 213
  def' (.cls .diag) (.cls .ut) 0 .diagUt,  -- 221
  redirect (.cls .ut) .am (.cls .lt) .am true,  -- 229
  redirect (.cls .ut) (.cls .const) .am (.cls .const) true,  -- 230
  redirect (.cls .ut) (.cls .lt) .am (.cls .lt) true,  -- 231-233
  def' (.cls .lr) (.cls .lr) 0 .lrLr,  -- 239
  def' (.cls .lr) .am 0 .lrAm,  -- 252
  def' .am (.cls .lr) 0 .amLr,  -- 260
  def' (.cls .lr) (.cls .const) 0 .lrConst,  -- 268
  def' (.cls .const) (.cls .lr) 0 .constLr,  -- 273
  redirect (.cls .lr) (.cls .diag) (.cls .lr) .am true,  -- 278
  redirect (.cls .lr) (.cls .lt) (.cls .lr) .am true,  -- 279
  redirect (.cls .lr) (.cls .ut) (.cls .lr) .am true,  -- 280
  def' (.cls .wb) .am 0 .wbAm,  -- 286
  def' .am (.cls .wb) 0 .amWb,  -- 295
  redirect (.cls .wb) (.cls .wb) (.cls .wb) .am false,  -- 304
  redirect (.cls .wb) (.cls .diag) (.cls .wb) .am true,  -- 305
  redirect (.cls .wb) (.cls .const) (.cls .wb) .am true,  -- 306
  redirect (.cls .wb) (.cls .lr) (.cls .wb) .am true,  -- 307
  redirect (.cls .wb) (.cls .lt) (.cls .wb) .am true,  -- 308
  redirect (.cls .wb) (.cls .ut) (.cls .wb) .am true,  -- 309
  def' (.cls .kron) (.cls .kron) 0 .kronKron,  -- 315
  def' (.cls .kron) .am 0 .kronAm,  -- 343
  def' .am (.cls .kron) 0 .amKron,  -- 364
  def' (.cls .kron) (.cls .diag) 0 .kronDiag,  -- 369
  def' (.cls .diag) (.cls .kron) 0 .diagKron,  -- 379
  redirect (.cls .kron) (.cls .const) .am (.cls .const) true,  -- 389
  redirect (.cls .kron) (.cls .lr) .am (.cls .lr) true,  -- 390
  redirect (.cls .kron) (.cls .wb) .am (.cls .wb) true,  -- 391
  redirect (.cls .kron) (.cls .lt) .am (.cls .lt) true,  -- 392
  redirect (.cls .kron) (.cls .ut) .am (.cls .ut) true]  -- 393

/-! ### Resolution depends on the precedences only through their order -/

/-- Change the precedence. -/
def Method.mapP (f : ℕ → ℕ) (m : Method M) : Method M := ⟨m.ta, m.tb, f m.prec, m.impl⟩
/-- Change the precedence. -/
def Reg.mapP (f : ℕ → ℕ) : Reg M → Reg M
  | .def' a b p i => .def' a b (f p) i
  | r => r

theorem candidates_map (f : ℕ → ℕ) (t : List (Method M)) (a b : Ty) :
    candidates (t.map (Method.mapP f)) a b = (candidates t a b).map (Method.mapP f) := by
  simp only [candidates, List.filter_map, List.all_map]
  rfl

theorem foldl_max_map {f : ℕ → ℕ} (hf : StrictMono f) (l : List (Method M)) (x : ℕ) :
    (l.map (Method.mapP f)).foldl (fun p m => max p m.prec) (f x) = f (l.foldl (fun p m => max p m.prec) x) := by
  induction l generalizing x with
  | nil => rfl
  | cons m l ih =>
    simp only [List.map_cons, List.foldl_cons]
    rw [← ih, hf.monotone.map_max]
    rfl

theorem resolve_map {f : ℕ → ℕ} (hf : StrictMono f) (h0 : f 0 = 0) (t : List (Method M)) (a b : Ty) :
    resolve (t.map (Method.mapP f)) a b = resolve t a b := by
  unfold resolve
  rw [candidates_map]
  match candidates t a b with
  | [] => rfl
  | [m] => rfl
  | m :: m' :: ms =>
    have e := foldl_max_map hf (m :: m' :: ms) 0
    rw [h0] at e
    simp only [List.map_cons] at e
    simp only [List.map_cons, e]
    have e2 : ∀ x, (List.filter (fun y : Method M => y.prec == f x) (m.mapP f :: m'.mapP f :: ms.map (Method.mapP f))) =
        (List.filter (fun y : Method M => y.prec == x) (m :: m' :: ms)).map (Method.mapP f) := by
      intro x
      have : (m.mapP f :: m'.mapP f :: ms.map (Method.mapP f)) = (m :: m' :: ms).map (Method.mapP f) := rfl
      rw [this, List.filter_map]
      congr 1
      refine List.filter_congr fun y _ => ?_
      simp [Function.comp, Method.mapP, hf.injective.eq_iff]
    rw [e2]
    match List.filter (fun y : Method M => y.prec == (m :: m' :: ms).foldl (fun p m => max p m.prec) 0) (m :: m' :: ms) with
    | [] => rfl
    | [_] => rfl
    | _ :: _ :: _ => rfl

theorem addMethod_map (f : ℕ → ℕ) (t : List (Method M)) (m : Method M) :
    addMethod (t.map (Method.mapP f)) (m.mapP f) = (addMethod t m).map (Method.mapP f) := by
  simp only [addMethod, List.filter_map, List.map_append]
  rfl

theorem register_map {f : ℕ → ℕ} (hf : StrictMono f) (h0 : f 0 = 0) (t : List (Method M)) (r : Reg M) :
    register (t.map (Method.mapP f)) (r.mapP f) = (register t r).map (Method.mapP f) := by
  cases r with
  | def' a b p i => exact addMethod_map f t ⟨a, b, p, i⟩
  | redirect fa fb ta tb rev =>
    have key : ∀ (t : List (Method M)) (fa fb ta tb : Ty),
        (match resolve (t.map (Method.mapP f)) ta tb with
          | .ok i => addMethod (t.map (Method.mapP f)) ⟨fa, fb, 0, i⟩
          | .error _ => t.map (Method.mapP f)) =
        (match resolve t ta tb with
          | .ok i => addMethod t ⟨fa, fb, 0, i⟩
          | .error _ => t).map (Method.mapP f) := by
      intro t fa fb ta tb
      rw [resolve_map hf h0]
      cases resolve t ta tb with
      | error e => rfl
      | ok i =>
        have := addMethod_map f t ⟨fa, fb, 0, i⟩
        simp only [Method.mapP, h0] at this
        exact this
    simp only [register, Reg.mapP, key]
    split_ifs
    · rfl
    · rfl

theorem table_map {f : ℕ → ℕ} (hf : StrictMono f) (h0 : f 0 = 0) (l : List (Reg M)) :
    table (l.map (Reg.mapP f)) = (table l).map (Method.mapP f) := by
  have : ∀ t : List (Method M), (l.map (Reg.mapP f)).foldl register (t.map (Method.mapP f)) = (l.foldl register t).map (Method.mapP f) := by
    induction l with
    | nil => intro t; rfl
    | cons r l ih => intro t; simp only [List.map_cons, List.foldl_cons, register_map hf h0, ih]
  exact this []

/-- Spread 0, 1, 2, ... as 0, p, q, q + 1, ... -/
def spread (p q n : ℕ) : ℕ := if n = 0 then 0 else if n = 1 then p else q + (n - 2)

theorem spread_mono {p q : ℕ} (hp : 0 < p) (hq : p < q) : StrictMono (spread p q) := by
  refine strictMono_nat_of_lt_succ fun n => ?_
  rcases n with _ | _ | n
  · simpa [spread] using hp
  · simpa [spread] using hq
  · simp [spread]

theorem resolve_regs (regs : ℕ → ℕ → List (Reg M)) (h : ∀ f p q, f 0 = 0 → (regs p q).map (Reg.mapP f) = regs (f p) (f q)) {p q : ℕ} (hp : 0 < p)
    (hq : 0 < q) (hpq : p ≠ q) (a b : Ty) :
    resolve (table (regs p q)) a b = if q < p then resolve (table (regs 2 1)) a b else resolve (table (regs 1 2)) a b := by
  split_ifs with hlt
  · have h1 := spread_mono hq hlt
    have := h (spread q p) 2 1 rfl
    rw [show spread q p 2 = p from by simp [spread], show spread q p 1 = q from by simp [spread]] at this
    rw [← this, table_map h1 rfl, resolve_map h1 rfl]
  · have h1 := spread_mono hp (show p < q by omega)
    have := h (spread p q) 1 2 rfl
    rw [show spread p q 2 = q from by simp [spread], show spread p q 1 = p from by simp [spread]] at this
    rw [← this, table_map h1 rfl, resolve_map h1 rfl]

/-! ### C31 -/

/-- The method called for two Zero matrices is the one with the higher precedence. -/
def zz {M : Type} (p q : ℕ) (x y : M) : M := if q < p then x else y

/-- All classes. -/
def Kind.all : List Kind := [.zero, .dense, .diag, .const, .lt, .ut, .lr, .wb, .kron, .tiled]
theorem Kind.mem_all (k : Kind) : k ∈ Kind.all := by cases k <;> decide

/-- C31 for `B.add`: for every pair of classes exactly one method is called, never an ambiguity, and it is the one the model calls. -/
theorem C31_add {p q : ℕ} (hp : 0 < p) (hq : 0 < q) (hpq : p ≠ q) (a b : Kind) :
    resolve (table (addRegs p q)) (.cls a) (.cls b) = .ok (if a = .zero ∧ b = .zero then zz p q .amZero .zeroAm else addId a b) := by
  rw [resolve_regs addRegs (fun f p q h => by simp [addRegs, Reg.mapP, h]) hp hq hpq]
  have h1 : ∀ a ∈ Kind.all, ∀ b ∈ Kind.all, resolve (table (addRegs 2 1)) (.cls a) (.cls b) =
    .ok (if a = .zero ∧ b = .zero then .amZero else addId a b) := by decide +kernel
  have h2 : ∀ a ∈ Kind.all, ∀ b ∈ Kind.all, resolve (table (addRegs 1 2)) (.cls a) (.cls b) =
    .ok (if a = .zero ∧ b = .zero then .zeroAm else addId a b) := by decide +kernel
  rw [h1 a a.mem_all b b.mem_all, h2 a a.mem_all b b.mem_all, zz]
  split_ifs <;> rfl

/-- C31 for `B.multiply`. -/
theorem C31_multiply {p q : ℕ} (hp : 0 < p) (hq : 0 < q) (hpq : p ≠ q) (a b : Kind) :
    resolve (table (mulRegs p q)) (.cls a) (.cls b) = .ok (if a = .zero ∧ b = .zero then zz p q .amZero .zeroAm else mulId a b) := by
  rw [resolve_regs mulRegs (fun f p q h => by simp [mulRegs, Reg.mapP, h]) hp hq hpq]
  have h1 : ∀ a ∈ Kind.all, ∀ b ∈ Kind.all, resolve (table (mulRegs 2 1)) (.cls a) (.cls b) =
    .ok (if a = .zero ∧ b = .zero then .amZero else mulId a b) := by decide +kernel
  have h2 : ∀ a ∈ Kind.all, ∀ b ∈ Kind.all, resolve (table (mulRegs 1 2)) (.cls a) (.cls b) =
    .ok (if a = .zero ∧ b = .zero then .zeroAm else mulId a b) := by decide +kernel
  rw [h1 a a.mem_all b b.mem_all, h2 a a.mem_all b b.mem_all, zz]
  split_ifs <;> rfl

/-- The pairs of classes `B.matmul` has no method for: TiledBlocks with Dense or TiledBlocks. -/
def noMatmul : Kind → Kind → Bool
  | .tiled, .tiled | .tiled, .dense | .dense, .tiled => true
  | _, _ => false

/-- C31 for `B.matmul`: exactly one method, except for TiledBlocks with Dense or TiledBlocks, where NotFoundLookupError is raised. -/
theorem C31_matmul {p q : ℕ} (hp : 0 < p) (hq : 0 < q) (hpq : p ≠ q) (a b : Kind) :
    resolve (table (mmRegs p q)) (.cls a) (.cls b) =
      (if a = .zero ∧ b = .zero then .ok (zz p q .amZero .zeroAm) else match mmId a b with | some m => .ok m | none => .error .notFound) ∧
    (mmId a b = none ↔ noMatmul a b = true) := by
  refine ⟨?_, by cases a <;> cases b <;> decide⟩
  rw [resolve_regs mmRegs (fun f p q h => by simp [mmRegs, Reg.mapP, h]) hp hq hpq]
  have h1 : ∀ a ∈ Kind.all, ∀ b ∈ Kind.all, resolve (table (mmRegs 2 1)) (.cls a) (.cls b) =
    (if a = .zero ∧ b = .zero then .ok .amZero else match mmId a b with | some m => .ok m | none => .error .notFound) := by decide +kernel
  have h2 : ∀ a ∈ Kind.all, ∀ b ∈ Kind.all, resolve (table (mmRegs 1 2)) (.cls a) (.cls b) =
    (if a = .zero ∧ b = .zero then .ok .zeroAm else match mmId a b with | some m => .ok m | none => .error .notFound) := by decide +kernel
  rw [h1 a a.mem_all b b.mem_all, h2 a a.mem_all b b.mem_all, zz]
  split_ifs <;> rfl

/-- C31: no pair of classes is ambiguous. -/
theorem C31_unambiguous {p q : ℕ} (hp : 0 < p) (hq : 0 < q) (hpq : p ≠ q) (a b : Kind) :
    resolve (table (addRegs p q)) (.cls a) (.cls b) ≠ .error .ambiguous ∧
    resolve (table (mulRegs p q)) (.cls a) (.cls b) ≠ .error .ambiguous ∧
    resolve (table (mmRegs p q)) (.cls a) (.cls b) ≠ .error .ambiguous := by
  refine ⟨by rw [C31_add hp hq hpq]; simp, by rw [C31_multiply hp hq hpq]; simp, ?_⟩
  rw [(C31_matmul hp hq hpq a b).1]
  split_ifs
  · simp
  · cases mmId a b <;> simp

/-- Where the precedences matter, the two methods do the same: the two methods for Zero agree on two Zero matrices. -/
theorem C31_zero_zero {K : Type} [Field K] [LinearOrder K] (env : Env K) (B : Ops K) (s t : Shp) (r c r' c' : ℕ) (ta tb : Bool) :
    addRun env B .amZero (.zero s r c) (.zero t r' c') = addRun env B .zeroAm (.zero s r c) (.zero t r' c') ∧
    mulRun B .amZero (.zero s r c) (.zero t r' c') = mulRun B .zeroAm (.zero s r c) (.zero t r' c') ∧
    mmRun B .amZero ta tb (.zero s r c) (.zero t r' c') = mmRun B .zeroAm ta tb (.zero s r c) (.zero t r' c') := by
  have key : ∀ (s t : Shp) (r c r' c' : ℕ), Compat (c :: r :: s) (c' :: r' :: t) →
      broadcastTo B (.zero s r c) (bsh (c :: r :: s) (c' :: r' :: t)) = .ok (.zero (bsh s t) (bd r r') (bd c c')) := by
    intro s t r c r' c' h
    have hs : shape (.zero s r c : Mat K) = .ok (c :: r :: s) := rfl
    unfold broadcastTo
    rw [hs]
    simp only [bind, Except.bind]
    split_ifs with e
    · simp only [bsh_cons, List.cons.injEq] at e
      rw [← e.1, ← e.2.1, ← e.2.2]
    · have h2 : Compat (c :: r :: s) (bsh (c :: r :: s) (c' :: r' :: t)) := h.fits_left.compat (Fits.refl _)
      have e2 := bsh_idem_left (c :: r :: s) (c' :: r' :: t)
      simp only [bsE, if_pos h2, e2]
      rfl
  have hs : shape (.zero s r c : Mat K) = .ok (c :: r :: s) := rfl
  have ht : shape (.zero t r' c' : Mat K) = .ok (c' :: r' :: t) := rfl
  by_cases h : Compat (c :: r :: s) (c' :: r' :: t)
  · have k1 := key s t r c r' c' h
    have k2 := key t s r' c' r c h.symm
    rw [bsh_comm (c' :: r' :: t), bsh_comm t s, bd_comm r', bd_comm c'] at k2
    simp only [bsh_cons] at k1 k2
    refine ⟨?_, ?_, rfl⟩
    · simp [addRun, shapeBroadcast, hs, ht, assertCompatible, guardE, h, bsE, bind, Except.bind, k1, k2]
    · simp [mulRun, shapeBroadcast, hs, ht, assertCompatible, guardE, h, bsE, bind, Except.bind, k1, k2]
  · refine ⟨?_, ?_, rfl⟩
    · simp [addRun, hs, ht, assertCompatible, guardE, h, bind, Except.bind]
    · simp [mulRun, hs, ht, assertCompatible, guardE, h, bind, Except.bind]

/-- Without a redirection the table would be ambiguous: the resolver does report ambiguities. -/
example : resolve [⟨.am, .cls .diag, 0, 1⟩, ⟨.cls .lt, .am, 0, 2⟩] (.cls .lt) (.cls .diag) = (.error .ambiguous : E ℕ) := by decide

end Verif
