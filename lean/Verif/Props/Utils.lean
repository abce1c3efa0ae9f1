import Verif.Model.Checking
import Verif.Model.MonteCarlo
import Mathlib.Tactic.Linarith

/-
Properties of `robuststats/utils/checking.py` (C14) and `montecarlo.py` (C15).
-/
set_option autoImplicit false

namespace RS

/-! ## C14: argument checkers -/

/-- Spec: being positive as a Python float. -/
def PyFloat.IsPos : PyFloat → Prop
  | .fin x => 0 < x
  | .pinf => True
  | _ => False

/-- Spec: being non-negative as a Python float. -/
def PyFloat.IsNonneg : PyFloat → Prop
  | .fin x => 0 ≤ x
  | .pinf => True
  | _ => False

theorem C14_check_positive_strict (x : PyFloat) :
    (check_positive x = .error .valueError ↔ ¬ x.IsPos) ∧ (check_positive x = .ok () ↔ x.IsPos) := by
  cases x with
  | fin x =>
    by_cases h : 0 < x <;>
      simp [check_positive, PyFloat.gtZero, PyFloat.IsPos, h]
  | _ => simp [check_positive, PyFloat.gtZero, PyFloat.IsPos]

theorem C14_check_positive_nonstrict (x : PyFloat) :
    (check_positive x false = .error .valueError ↔ ¬ x.IsNonneg) ∧
    (check_positive x false = .ok () ↔ x.IsNonneg) := by
  cases x with
  | fin x =>
    by_cases h : 0 ≤ x <;>
      simp [check_positive, PyFloat.geZero, PyFloat.IsNonneg, h]
  | _ => simp [check_positive, PyFloat.geZero, PyFloat.IsNonneg]

theorem C14_check_type {T : Type*} [DecidableEq T] (ty : T) (accepted : List T) :
    (check_type ty accepted = .error .typeError ↔ ∀ t ∈ accepted, t ≠ ty) ∧
    (check_type ty accepted = .ok () ↔ ∃ t ∈ accepted, t = ty) := by
  by_cases h : ty ∈ accepted
  · simp [check_type, h]
  · simp only [check_type, h, not_false_eq_true, if_true, true_iff, reduceCtorEq, false_iff]
    refine ⟨fun t ht he => h (he ▸ ht), ?_⟩
    rintro ⟨t, ht, rfl⟩; exact h ht

theorem C14_check_value {α : Type*} [DecidableEq α] (v : α) (accepted : List α) :
    (check_value v accepted = .error .valueError ↔ ∀ t ∈ accepted, t ≠ v) ∧
    (check_value v accepted = .ok () ↔ ∃ t ∈ accepted, t = v) := by
  by_cases h : v ∈ accepted
  · simp [check_value, h]
  · simp only [check_value, h, not_false_eq_true, if_true, true_iff, reduceCtorEq, false_iff]
    refine ⟨fun t ht he => h (he ▸ ht), ?_⟩
    rintro ⟨t, ht, rfl⟩; exact h ht

/-! ## C15: temp_seed -/

open Rng

variable {S σ α V : Type}

/-- Whatever the body does to the random state and however it exits, the state after the
block is the state before it. -/
theorem C15_restores_state (seedFn : σ → Option S) (sd : σ) (body : Rng S α) (s : S) :
    (tempSeed seedFn sd body s).2 = s := by
  simp only [tempSeed, Rng.bind, getState, seed]
  cases seedFn sd with
  | none => rfl
  | some s' => simp [Rng.tryFinally, setState]

/-- What the block computes (value or exception) does not depend on the entry state. -/
theorem C15_result_depends_only_on_seed (seedFn : σ → Option S) (sd : σ) (body : Rng S α)
    (s₁ s₂ : S) : (tempSeed seedFn sd body s₁).1 = (tempSeed seedFn sd body s₂).1 := by
  simp only [tempSeed, Rng.bind, getState, seed]
  cases seedFn sd with
  | none => rfl
  | some s' => simp [Rng.tryFinally, setState]

/-- For a valid seed the body runs exactly once, from the seeded state, and its outcome
(value or exception) is the outcome of the block. -/
theorem C15_result_is_body_from_seed (seedFn : σ → Option S) (sd : σ) (body : Rng S α) (s s' : S)
    (h : seedFn sd = some s') : (tempSeed seedFn sd body s).1 = (body s').1 := by
  simp [tempSeed, Rng.bind, getState, seed, h, Rng.tryFinally, setState]

/-- Spec: all random draws and reseedings of the program happen inside `temp_seed` blocks. -/
inductive Guarded : RProg S σ V → Prop
  | ret (v) : Guarded (.ret v)
  | raise (e) : Guarded (.raise e)
  | catch (b h) : Guarded b → (∀ e, Guarded (h e)) → Guarded (.catch b h)
  | withTempSeed (sd b k) : (∀ v, Guarded (k v)) → Guarded (.withTempSeed sd b k)

/-- A program of any depth whose random operations are all inside `temp_seed` blocks leaves
the random state as it was and computes a result independent of it; inside the blocks
anything goes, including further blocks, reseeding and exceptions. -/
theorem C15_guarded_program (next : S → V × S) (seedFn : σ → Option S) (p : RProg S σ V)
    (hp : Guarded p) :
    ∀ s, (p.run next seedFn s).2 = s ∧ ∀ s', (p.run next seedFn s).1 = (p.run next seedFn s').1 := by
  induction hp with
  | ret v => intro s; exact ⟨rfl, fun _ => rfl⟩
  | raise e => intro s; exact ⟨rfl, fun _ => rfl⟩
  | «catch» b h _ _ ihb ihh =>
    intro s
    obtain ⟨h1, h2⟩ := ihb s
    have run_eq : ∀ t, ((RProg.catch b h).run next seedFn t) =
        match b.run next seedFn t with
        | (.ok a, s') => (.ok a, s')
        | (.error e, s') => (h e).run next seedFn s' := fun t => by
          simp only [RProg.run, Rng.tryCatch]; rfl
    constructor
    · rw [run_eq]
      rcases hb : b.run next seedFn s with ⟨r, s1⟩
      rw [hb] at h1
      simp only at h1
      subst h1
      cases r with
      | ok a => rfl
      | error e => exact (ihh e s1).1
    · intro s'
      rw [run_eq, run_eq]
      have h2' := h2 s'
      have h1' := (ihb s').1
      rcases hb : b.run next seedFn s with ⟨r, s1⟩
      rcases hb' : b.run next seedFn s' with ⟨r', s1'⟩
      rw [hb, hb'] at h2'
      rw [hb] at h1
      rw [hb'] at h1'
      simp only at h1 h1' h2'
      subst h1 h1' h2'
      cases r with
      | ok a => rfl
      | error e => exact (ihh e s1).2 s1'
  | withTempSeed sd b k _ ih =>
    intro s
    have run_eq : ∀ t, ((RProg.withTempSeed sd b k).run next seedFn t) =
        match tempSeed seedFn sd (b.run next seedFn) t with
        | (.ok a, s') => (k a).run next seedFn s'
        | (.error e, s') => (.error e, s') := fun t => by
          simp only [RProg.run, Rng.bind]; rfl
    have key : ∀ t, tempSeed seedFn sd (b.run next seedFn) t
        = ((tempSeed seedFn sd (b.run next seedFn) s).1, t) := fun t =>
      Prod.ext (C15_result_depends_only_on_seed seedFn sd _ t s)
        (C15_restores_state seedFn sd _ t)
    constructor
    · rw [run_eq, key]
      cases (tempSeed seedFn sd (b.run next seedFn) s).1 with
      | ok a => exact (ih a s).1
      | error e => rfl
    · intro s'
      rw [run_eq, run_eq, key s, key s']
      cases (tempSeed seedFn sd (b.run next seedFn) s).1 with
      | ok a => exact (ih a s).2 s'
      | error e => rfl

/-- Non-vacuity: a guarded program with nesting, reseeding inside and an exception. -/
example : Guarded (S := ℕ) (σ := ℕ) (V := ℕ)
    (.withTempSeed 1 (.draw fun v => .withTempSeed 2 (.reseed 3 (.draw fun _ => .raise .valueError))
      fun _ => .ret v) fun v => .ret v) := .withTempSeed _ _ _ fun _ => .ret _

/-- A program that draws outside a block does change the state. -/
example : ((RProg.draw (fun v => .ret v) : RProg ℕ ℕ ℕ).run (fun s => (s, s + 1)) some 5).2 = 6 :=
  rfl

end RS
