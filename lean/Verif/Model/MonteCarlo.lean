import Verif.Model.Py

/-
Model of `robuststats/utils/montecarlo.py`: `temp_seed`.

The global random state of numpy is an abstract state `S`; a piece of Python code that
uses it is a state transformer that returns normally or raises.
-/
set_option autoImplicit false

namespace RS

universe u v w

/-- Code acting on the global random state. -/
def Rng (S : Type u) (α : Type v) := S → Except PyErr α × S

namespace Rng
variable {S : Type u} {α β : Type v} {σ : Type w}

/-- Return a value. -/
def pure (a : α) : Rng S α := fun s => (.ok a, s)

/-- Raise an exception. -/
def raise (e : PyErr) : Rng S α := fun s => (.error e, s)

/-- Sequential composition; an exception skips the rest. -/
def bind {α : Type v} {β : Type w} (m : Rng S α) (k : α → Rng S β) : Rng S β := fun s =>
  match m s with
  | (.ok a, s') => k a s'
  | (.error e, s') => (.error e, s')

/-- `try: body  finally: fin`: `fin` runs on both exits; an exception of `fin` replaces
the outcome. -/
def tryFinally (body : Rng S α) (fin : Rng S Unit) : Rng S α := fun s =>
  match body s with
  | (r, s') =>
    match fin s' with
    | (.ok _, s'') => (r, s'')
    | (.error e, s'') => (.error e, s'')

/-- `try: body  except: handler` -/
def tryCatch (body : Rng S α) (handler : PyErr → Rng S α) : Rng S α := fun s =>
  match body s with
  | (.ok a, s') => (.ok a, s')
  | (.error e, s') => handler e s'

/-- `np.random.get_state()` -/
def getState : Rng S S := fun s => (.ok s, s)

/-- `np.random.set_state(state)` -/
def setState (s : S) : Rng S Unit := fun _ => (.ok (), s)

/-- `np.random.seed(seed)`: an invalid seed raises `ValueError` and leaves the state. -/
def seed (seedFn : σ → Option S) (sd : σ) : Rng S Unit := fun s =>
  match seedFn sd with
  | some s' => (.ok (), s')
  | none => (.error .valueError, s)

/-- A random draw: `next` gives the value and the new state. -/
def draw (next : S → α × S) : Rng S α := fun s => (.ok (next s).1, (next s).2)

/-- montecarlo.py:16-23 `temp_seed`: `with temp_seed(seed): body`. The context manager
resumes the generator after the `yield` on normal exit and throws the body's exception
at the `yield`, so that the `finally` clause runs in both cases. -/
def tempSeed (seedFn : σ → Option S) (sd : σ) (body : Rng S α) : Rng S α :=
  bind getState fun state =>
  bind (seed seedFn sd) fun _ =>
  tryFinally body (setState state)

end Rng

/-- A small language of programs that use the random state, to talk about nesting. -/
inductive RProg (S σ V : Type) where
  /-- draw a value from the generator and go on with it -/
  | draw (k : V → RProg S σ V)
  /-- `np.random.seed(sd)` and go on -/
  | reseed (sd : σ) (k : RProg S σ V)
  /-- return a value -/
  | ret (v : V)
  /-- raise an exception -/
  | raise (e : PyErr)
  /-- `try: body except: handler` -/
  | catch (body : RProg S σ V) (handler : PyErr → RProg S σ V)
  /-- `with temp_seed(sd): body`, then go on with its value -/
  | withTempSeed (sd : σ) (body : RProg S σ V) (k : V → RProg S σ V)

/-- Execution of a program; `withTempSeed` is the model of the context manager. -/
def RProg.run {S σ V : Type} (next : S → V × S) (seedFn : σ → Option S) :
    RProg S σ V → Rng S V
  | .draw k => Rng.bind (Rng.draw next) fun v => (k v).run next seedFn
  | .reseed sd k => Rng.bind (Rng.seed seedFn sd) fun _ => k.run next seedFn
  | .ret v => Rng.pure v
  | .raise e => Rng.raise e
  | .catch body handler =>
      Rng.tryCatch (body.run next seedFn) fun e => (handler e).run next seedFn
  | .withTempSeed sd body k =>
      Rng.bind (Rng.tempSeed seedFn sd (body.run next seedFn)) fun v => (k v).run next seedFn

end RS
