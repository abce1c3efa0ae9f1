import Verif.Model.Base
import Mathlib.LinearAlgebra.Matrix.PosDef
import Mathlib.Tactic.Linarith

/-
Helper lemmas for the covariance part of base.py.
-/
set_option autoImplicit false

namespace RS

open Matrix

/-! ### parallel runs -/

/-- What one worker computes. -/
noncomputable def workerResult {S X : Type} (E : EstObj S X) (s : S) (x : X) :
    Py (Σ k : ℕ, Matrix (Fin k) (Fin k) ℂ) :=
  match E.fit s x with
  | (s', .ok ()) => .ok (E.covariance s')
  | (_, .error e) => .error e

/-- Progress of a task. -/
def CovTask.rank : CovTask → ℕ
  | .pending => 0
  | .copied _ => 1
  | .done _ => 2

/-- Invariant of a parallel run started with the user's estimator in state `s`. -/
structure ParInv {S X : Type} (E : EstObj S X) (xs : List X) (s : S) (σ : ParState S) : Prop where
  user : σ.heap[0]? = some s
  len : σ.tasks.length = xs.length
  copied : ∀ (i r : ℕ), σ.tasks[i]? = some (CovTask.copied r) → 0 < r ∧ σ.heap[r]? = some s
  inj : ∀ (i j r : ℕ), σ.tasks[i]? = some (CovTask.copied r) → σ.tasks[j]? = some (CovTask.copied r) → i = j
  done : ∀ (i : ℕ) x res, σ.tasks[i]? = some (CovTask.done res) → xs[i]? = some x → res = workerResult E s x

theorem ParInv.step {S X : Type} {E : EstObj S X} {xs : List X} {s : S} {σ : ParState S}
    (h : ParInv E xs s σ) (i : ℕ) :
    ParInv E xs s (parStep E xs σ i) ∧
    ∀ j < xs.length, (((parStep E xs σ i).tasks[j]?).map CovTask.rank).getD 0 =
      min 2 (((σ.tasks[j]?).map CovTask.rank).getD 0 + if j = i then 1 else 0) := by
  have hrank : ∀ (t : CovTask), t.rank ≤ 2 := by intro t; cases t <;> simp [CovTask.rank]
  have hr2 : ∀ j : ℕ, ((σ.tasks[j]?).map CovTask.rank).getD 0 ≤ 2 := by
    intro j; cases h' : σ.tasks[j]? with
    | none => simp
    | some t => simpa using hrank t
  unfold parStep
  have hh := h.len
  by_cases hi : i < xs.length
  · have hx : xs[i]? = some xs[i] := List.getElem?_eq_getElem hi
    have hit : i < σ.tasks.length := by omega
    have ht : σ.tasks[i]? = some σ.tasks[i] := List.getElem?_eq_getElem hit
    rw [hx, ht]
    cases hc : σ.tasks[i] with
    | pending =>
      simp only [h.user]
      have hpos : 0 < σ.heap.length := by
        have := h.user
        by_contra h0
        rw [List.getElem?_eq_none (by omega)] at this
        cases this
      refine ⟨⟨?_, by simp [hh], ?_, ?_, ?_⟩, ?_⟩
      · simp only [List.getElem?_append_left hpos, h.user]
      · intro j r hj
        rw [List.getElem?_set] at hj
        split_ifs at hj with e1
        · cases hj
          refine ⟨hpos, by simp⟩
        · obtain ⟨c1, c2⟩ := h.copied j r hj
          refine ⟨c1, ?_⟩
          have : r < σ.heap.length := by
            by_contra h0
            rw [List.getElem?_eq_none (by omega)] at c2
            cases c2
          rw [List.getElem?_append_left this, c2]
      · intro j k r hj hk
        have aux : ∀ j : ℕ, σ.tasks[j]? = some (CovTask.copied σ.heap.length) → False := by
          intro j hj
          have := (h.copied j _ hj).2
          rw [List.getElem?_eq_none le_rfl] at this
          cases this
        rw [List.getElem?_set] at hj hk
        split_ifs at hj hk with e1 e2 e2
        · exact e1.symm.trans e2
        · cases hj; exact (aux k hk).elim
        · cases hk; exact (aux j hj).elim
        · exact h.inj j k r hj hk
      · intro j x res hj hxj
        rw [List.getElem?_set] at hj
        split_ifs at hj with e1
        · cases hj
        · exact h.done j x res hj hxj
      · intro j hj
        rw [List.getElem?_set]
        by_cases e1 : i = j
        · subst e1
          rw [if_pos rfl, if_pos rfl, if_pos hit, ht, hc]; rfl
        · rw [if_neg e1, if_neg (Ne.symm e1)]
          have := hr2 j; omega
    | copied r =>
      obtain ⟨c1, c2⟩ := h.copied i r (by rw [ht, hc])
      simp only [c2]
      have key : ∀ (s' : S) (res : Py (Σ k : ℕ, Matrix (Fin k) (Fin k) ℂ)),
          res = workerResult E s xs[i] →
          ParInv E xs s ⟨σ.heap.set r s', σ.tasks.set i (.done res)⟩ ∧
          ∀ j < xs.length, (((σ.tasks.set i (.done res))[j]?).map CovTask.rank).getD 0 =
            min 2 (((σ.tasks[j]?).map CovTask.rank).getD 0 + if j = i then 1 else 0) := by
        intro s' res hres
        refine ⟨⟨?_, by simp [hh], ?_, ?_, ?_⟩, ?_⟩
        · simp only
          rw [List.getElem?_set_ne (by omega), h.user]
        · intro j r' hj
          rw [List.getElem?_set] at hj
          split_ifs at hj with e1
          · cases hj
          · obtain ⟨d1, d2⟩ := h.copied j r' hj
            refine ⟨d1, ?_⟩
            have : r ≠ r' := by
              rintro rfl
              exact e1 (h.inj i j r (by rw [ht, hc]) hj)
            simp only
            rw [List.getElem?_set_ne this, d2]
        · intro j k r' hj hk
          rw [List.getElem?_set] at hj hk
          split_ifs at hj hk with e1 e2 e2
          · cases hj
          · cases hj
          · cases hk
          · exact h.inj j k r' hj hk
        · intro j x res' hj hxj
          rw [List.getElem?_set] at hj
          split_ifs at hj with e1
          · cases hj
            subst e1
            rw [hx] at hxj
            cases hxj
            exact hres
          · exact h.done j x res' hj hxj
        · intro j hj
          rw [List.getElem?_set]
          by_cases e1 : i = j
          · subst e1
            rw [if_pos rfl, if_pos rfl, if_pos hit, ht, hc]; rfl
          · rw [if_neg e1, if_neg (Ne.symm e1)]
            have := hr2 j; omega
      cases hf : E.fit s xs[i] with
      | mk s' res =>
        cases res with
        | ok u => exact key s' _ (by simp [workerResult, hf])
        | error e => exact key s' _ (by simp [workerResult, hf])
    | done res =>
      refine ⟨h, ?_⟩
      intro j hj
      by_cases e1 : j = i
      · subst e1
        rw [if_pos rfl, ht, hc]; rfl
      · rw [if_neg e1]; have := hr2 j; show _ = _; simp only [Nat.add_zero]; omega
  · have hx : xs[i]? = none := List.getElem?_eq_none (by omega)
    have ht : σ.tasks[i]? = none := List.getElem?_eq_none (by omega)
    rw [hx, ht]
    refine ⟨h, fun j hj => ?_⟩
    rw [if_neg (by omega)]
    have := hr2 j
    simp only [Nat.add_zero]; omega

theorem ParInv.run {S X : Type} {E : EstObj S X} {xs : List X} {s : S} {σ : ParState S}
    (h : ParInv E xs s σ) (sched : List ℕ) :
    ParInv E xs s (parRun E xs σ sched) ∧
    ∀ j < xs.length, (((parRun E xs σ sched).tasks[j]?).map CovTask.rank).getD 0 =
      min 2 (((σ.tasks[j]?).map CovTask.rank).getD 0 + sched.count j) := by
  have hr2 : ∀ (σ : ParState S) (j : ℕ), ((σ.tasks[j]?).map CovTask.rank).getD 0 ≤ 2 := by
    intro σ j; cases h' : σ.tasks[j]? with
    | none => simp
    | some t => cases t <;> simp [CovTask.rank]
  induction sched generalizing σ with
  | nil =>
    refine ⟨h, fun j _ => ?_⟩
    have := hr2 σ j
    simp only [parRun, List.foldl_nil, List.count_nil]; omega
  | cons i sched ih =>
    obtain ⟨h1, h2⟩ := h.step i
    obtain ⟨h3, h4⟩ := ih h1
    refine ⟨h3, fun j hj => ?_⟩
    have := h4 j hj
    simp only [parRun, List.foldl_cons] at this ⊢
    rw [this, h2 j hj, List.count_cons]
    by_cases e : j = i
    · subst e; simp; omega
    · have e' : ¬ (i = j) := fun h => e h.symm
      simp [e, e']; omega

theorem ParInv.init {S X : Type} (E : EstObj S X) (xs : List X) (s : S) :
    ParInv E xs s ⟨[s], List.replicate xs.length .pending⟩ where
  user := rfl
  len := by simp
  copied := by intro i r h; rw [List.getElem?_replicate] at h; split_ifs at h; cases h
  inj := by intro i j r h; rw [List.getElem?_replicate] at h; split_ifs at h; cases h
  done := by intro i x r h; rw [List.getElem?_replicate] at h; split_ifs at h; cases h

/-- After a complete schedule the tasks hold the results of independent fits. -/
theorem parRun_tasks {S X : Type} (E : EstObj S X) (xs : List X) (s : S) (sched : List ℕ)
    (hs : ∀ i < xs.length, 2 ≤ sched.count i) :
    (parRun E xs ⟨[s], List.replicate xs.length .pending⟩ sched).tasks =
      xs.map fun x => .done (workerResult E s x) := by
  obtain ⟨h1, h2⟩ := (ParInv.init E xs s).run sched
  apply List.ext_getElem?
  intro i
  by_cases hi : i < xs.length
  · have hx : xs[i]? = some xs[i] := List.getElem?_eq_getElem hi
    have hit : i < (parRun E xs ⟨[s], List.replicate xs.length .pending⟩ sched).tasks.length := by
      rw [h1.len]; exact hi
    have hr := h2 i hi
    have hc := hs i hi
    rw [List.getElem?_map, hx, Option.map_some]
    have ht := List.getElem?_eq_getElem hit
    generalize (parRun E xs ⟨[s], List.replicate xs.length .pending⟩ sched).tasks[i] = t at ht
    rw [ht] at hr ⊢
    simp only [Option.map_some, Option.getD_some] at hr
    cases t with
    | pending => simp only [CovTask.rank] at hr; omega
    | copied r => simp only [CovTask.rank] at hr; omega
    | done res => rw [h1.done i _ res ht hx]
  · rw [List.getElem?_eq_none, List.getElem?_eq_none]
    · simpa using hi
    · rw [h1.len]; omega

theorem parGather_ok {S X : Type} (E : EstObj S X) (s : S) (xs : List X) :
    parGather (xs.map fun x => CovTask.done (workerResult E s x)) =
      some (xs.mapM (workerResult E s)) := by
  induction xs with
  | nil => rfl
  | cons x xs ih =>
    rw [List.map_cons, List.mapM_cons]
    cases hw : workerResult E s x with
    | error e => simp [parGather, bind, Except.bind]
    | ok c =>
      simp only [parGather, ih]
      cases hm : xs.mapM (workerResult E s) <;> rfl

end RS
