import Verif.Spec.FeatureArray
import Mathlib.Data.List.Basic
import Mathlib.Tactic.Linarith

/-
Helper lemmas about the buffers of `_FeatureArray`.
-/
set_option autoImplicit false

namespace RS
variable {K : Type}

/-! ### growth -/

theorem growRows_spec (z : NDVal K) (rows : List (NDVal K)) (t : ℕ) :
    ∃ k, growRows z rows t = rows ++ List.replicate (1000 * k) z ∧
      t ≤ rows.length + 1000 * k ∧ (k = 0 ∨ rows.length + 1000 * (k - 1) < t) := by
  induction h : t - rows.length using Nat.strong_induction_on generalizing rows with
  | _ m ih =>
    unfold growRows
    by_cases hlt : rows.length < t
    · rw [if_pos hlt]
      have hl : (rows ++ List.replicate sizePreallocation z).length = rows.length + 1000 := by
        rw [List.length_append, List.length_replicate]; rfl
      obtain ⟨k, hk, hk1, hk2⟩ :=
        ih (t - (rows ++ List.replicate sizePreallocation z).length) (by rw [hl]; omega) _ rfl
      refine ⟨k + 1, ?_, ?_, Or.inr ?_⟩
      · rw [hk, List.append_assoc]
        unfold sizePreallocation
        rw [List.replicate_append_replicate]
        congr 2; ring
      · rw [hl] at hk1; omega
      · rw [hl] at hk2; simp only [Nat.add_sub_cancel]; rcases hk2 with rfl | h2
        · simpa using hlt
        · omega
    · rw [if_neg hlt]
      exact ⟨0, by simp, by omega, Or.inl rfl⟩

theorem growRows_length_ge (z : NDVal K) (rows : List (NDVal K)) (t : ℕ) :
    t ≤ (growRows z rows t).length ∧ rows.length ≤ (growRows z rows t).length := by
  obtain ⟨k, hk, h1, _⟩ := growRows_spec z rows t
  rw [hk, List.length_append, List.length_replicate]; omega

theorem growRows_take (z : NDVal K) (rows : List (NDVal K)) (t n : ℕ) (h : n ≤ rows.length) :
    (growRows z rows t).take n = rows.take n := by
  obtain ⟨k, hk, _, _⟩ := growRows_spec z rows t
  rw [hk, List.take_append_of_le_length h]

theorem growRows_of_le (z : NDVal K) (rows : List (NDVal K)) (t : ℕ) (h : t ≤ rows.length) :
    growRows z rows t = rows := by
  unfold growRows; rw [if_neg (by omega)]

theorem writeRows_take (rows new : List (NDVal K)) (pos : ℕ) (h : pos + new.length ≤ rows.length) :
    (writeRows rows pos new).take (pos + new.length) = rows.take pos ++ new := by
  unfold writeRows
  rw [List.take_append_of_le_length, List.take_of_length_le]
  all_goals simp only [List.length_append, List.length_take]; omega

theorem writeRows_take_le (rows new : List (NDVal K)) (pos n : ℕ) (hn : n ≤ pos)
    (h : pos ≤ rows.length) : (writeRows rows pos new).take n = rows.take n := by
  unfold writeRows
  rw [List.append_assoc, List.take_append_of_le_length, List.take_take, min_eq_left hn]
  simp only [List.length_take]; omega

theorem writeRows_length (rows new : List (NDVal K)) (pos : ℕ)
    (h : pos + new.length ≤ rows.length) : (writeRows rows pos new).length = rows.length := by
  unfold writeRows
  simp only [List.length_append, List.length_take, List.length_drop]; omega

theorem bcastOk_refl (s : List ℕ) : bcastOk s s = true := by
  induction s with
  | nil => rfl
  | cons a s ih => simp [bcastOk, ih]

/-! ### one component -/

theorem IsBatch.appendComp_none {dt : DType} {sh : List ℕ} {d : Comp K} {items : List (NDVal K)}
    (h : IsBatch dt sh d items) (zero : K) (len : ℕ) :
    appendComp zero len sh none d = (some ⟨dt, sh, items⟩, .ok items.length) := by
  cases h with
  | one v => simp [appendComp]
  | many => simp [appendComp, NDVal.unstack]

theorem IsBatch.appendComp_some {dt : DType} {sh : List ℕ} {d : Comp K} {items : List (NDVal K)}
    (h : IsBatch dt sh d items) (zero : K) (len : ℕ) (rows : List (NDVal K)) :
    appendComp zero len sh (some ⟨dt, sh, rows⟩) d =
      (some ⟨dt, sh, writeRows (growRows (NDVal.zeros zero sh) rows (len + items.length)) len
        items⟩, .ok items.length) := by
  cases h with
  | one v => simp [appendComp, bcastOk_refl]
  | many => simp [appendComp, NDVal.unstack, bcastOk_refl]

/-! ### all components -/

/-- The buffers hold, in their first `len` rows, the items `its`. -/
inductive Store (len : ℕ) : Sig → List (Option (Buf K)) → List (List (NDVal K)) → Prop
  | nil : Store len [] [] []
  | cons {dt sh rows items sig as its} (h : rows.take len = items) (hn : items.length = len)
      (t : Store len sig as its) :
      Store len ((dt, sh) :: sig) (some ⟨dt, sh, rows⟩ :: as) (items :: its)

/-- Capacity invariant: each buffer has `n₁ + 1000 k` rows, with the least `k` that makes
room for `len` items, and the rows beyond `len` are zero. -/
def CapOk (zero : K) (n₁ len : ℕ) (as : List (Option (Buf K))) : Prop :=
  ∀ b, some b ∈ as → (∃ k, b.rows.length = n₁ + 1000 * k ∧ len ≤ b.rows.length ∧
    (k = 0 ∨ b.rows.length < len + 1000)) ∧ ∀ v ∈ b.rows.drop len, v = NDVal.zeros zero b.ish

theorem CapOk.eq {zero : K} {n₁ len : ℕ} {as : List (Option (Buf K))} (h : CapOk zero n₁ len as) (b : Buf K)
    (hb : some b ∈ as) (hle : n₁ ≤ len) :
    b.rows.length = n₁ + 1000 * ((len - n₁ + 999) / 1000) := by
  obtain ⟨⟨k, h1, h2, h3⟩, _⟩ := h b hb
  omega

theorem Store.appendLoop {len n : ℕ} {sig : Sig} {as : List (Option (Buf K))}
    {its : List (List (NDVal K))} (hs : Store len sig as its) (zero : K)
    {ds : List (Comp K)} {new : List (List (NDVal K))} (hb : IsBatches n sig ds new) :
    ∃ as', RS.appendLoop zero len (sig.map Prod.snd) as ds =
        (as', .ok (if sig = [] then none else some n)) ∧
      Store (len + n) sig as' (List.zipWith (· ++ ·) its new) ∧
      ∀ n₁, CapOk zero n₁ len as → CapOk zero n₁ (len + n) as' := by
  induction hs generalizing ds new with
  | nil => cases hb; exact ⟨[], by simp [RS.appendLoop], .nil, by simp [CapOk]⟩
  | @cons dt sh rows items sig as its h hn t ih =>
    cases hb with
    | @cons _ _ d new0 _ ds new hd hn0 hb =>
      obtain ⟨as', h1, h2, h3⟩ := ih hb
      have hge := growRows_length_ge (NDVal.zeros zero sh) rows (len + new0.length)
      refine ⟨some ⟨dt, sh, writeRows (growRows (NDVal.zeros zero sh) rows (len + new0.length)) len
        new0⟩ :: as', ?_, ?_, ?_⟩
      · simp only [List.map_cons, RS.appendLoop, hd.appendComp_some, h1]
        by_cases hsig : sig = [] <;> simp [hsig, hn0]
      · refine .cons ?_ ?_ h2
        · rw [← hn0, writeRows_take _ _ _ hge.1, growRows_take, h]
          rw [← h, List.length_take] at hn; omega
        · simp [hn, hn0]
      · intro n₁ hc b hb'
        rcases List.mem_cons.1 hb' with hb' | hb'
        · obtain ⟨⟨k, hk1, hk2, hk3⟩, hz⟩ := hc ⟨dt, sh, rows⟩ (by simp)
          obtain ⟨j, hj1, hj2, hj3⟩ := growRows_spec (NDVal.zeros zero sh) rows (len + new0.length)
          cases hb'
          simp only [writeRows_length _ _ _ hge.1]
          refine ⟨⟨k + j, ?_⟩, ?_⟩
          · rw [hj1, List.length_append, List.length_replicate]
            simp only at hk1 hk2 hk3
            omega
          · intro v hv
            have hd : ∀ R : List (NDVal K), len + new0.length ≤ R.length →
                (writeRows R len new0).drop (len + n) = R.drop (len + n) := by
              intro R hR
              unfold writeRows
              rw [← hn0, List.drop_left']
              simp only [List.length_append, List.length_take]; omega
            simp only at hv hz hk2
            rw [hd _ hge.1, hj1] at hv
            rcases List.mem_append.1 (List.mem_of_mem_drop hv) with hv' | hv'
            · rw [List.drop_append] at hv
              rcases List.mem_append.1 hv with hv | hv
              · rw [← List.drop_drop] at hv
                exact hz v (List.mem_of_mem_drop hv)
              · exact (List.mem_replicate.1 (List.mem_of_mem_drop hv)).2
            · exact (List.mem_replicate.1 hv').2
        · exact h3 n₁ (fun b hb => hc b (by simp [hb])) b hb'

theorem appendLoop_fresh {n : ℕ} {sig : Sig} (zero : K)
    {ds : List (Comp K)} {new : List (List (NDVal K))} (hb : IsBatches n sig ds new) :
    ∃ as', RS.appendLoop zero 0 (sig.map Prod.snd) (List.replicate sig.length none) ds =
        (as', .ok (if sig = [] then none else some n)) ∧
      as' = List.zipWith (fun s rows => some ⟨s.1, s.2, rows⟩) sig new ∧
      Store n sig as' new := by
  induction hb with
  | nil => exact ⟨[], by simp [RS.appendLoop], rfl, .nil⟩
  | @cons dt sh d items sig ds its h hn t ih =>
    obtain ⟨as', h1, h2, h3⟩ := ih
    refine ⟨some ⟨dt, sh, items⟩ :: as', ?_, by simp [h2], .cons ?_ hn h3⟩
    · simp only [List.map_cons, List.length_cons, List.replicate_succ, RS.appendLoop,
        h.appendComp_none, h1]
      by_cases hsig : sig = [] <;> simp [hsig, hn]
    · rw [← hn, List.take_length]

theorem IsBatches.length {n : ℕ} {sig : Sig} {ds : List (Comp K)} {new : List (List (NDVal K))}
    (h : IsBatches n sig ds new) : ds.length = sig.length ∧ new.length = sig.length := by
  induction h with
  | nil => simp
  | cons _ _ _ ih => simp [ih]

theorem Store.length {n : ℕ} {sig : Sig} {as : List (Option (Buf K))} {its : List (List (NDVal K))}
    (h : Store n sig as its) : as.length = sig.length ∧ its.length = sig.length := by
  induction h with
  | nil => simp
  | cons _ _ _ ih => simp [ih]

theorem Store.each {n : ℕ} {sig : Sig} {as : List (Option (Buf K))} {its : List (List (NDVal K))}
    (h : Store n sig as its) : ∀ l ∈ its, l.length = n := by
  induction h with
  | nil => simp
  | cons _ hn _ ih => simp [hn]; exact ih

theorem packed_isBatch (dt : DType) (sh : List ℕ) (rows : List (NDVal K)) :
    IsBatch dt sh (.arr (packed dt sh rows)) rows := by
  match rows with
  | [] => exact .many []
  | [x] => exact .one x
  | x :: y :: l => exact .many (x :: y :: l)

theorem isBatches_packed {n : ℕ} (sig : Sig) (its : List (List (NDVal K)))
    (hlen : its.length = sig.length) (hn : ∀ l ∈ its, l.length = n) :
    IsBatches n sig
      ((List.zipWith (fun (s : DType × List ℕ) rows => packed s.1 s.2 rows) sig its).map Comp.arr)
      its := by
  induction sig generalizing its with
  | nil => simp at hlen; subst hlen; exact .nil
  | cons s sig ih =>
    match its, hlen with
    | rows :: its, hlen =>
      exact .cons (packed_isBatch _ _ _) (hn _ (by simp))
        (ih its (by simpa using hlen) fun l hl => hn l (by simp [hl]))

theorem Store.exportComps {n : ℕ} {sig : Sig} {as : List (Option (Buf K))}
    {its : List (List (NDVal K))} (h : Store n sig as its) :
    RS.exportComps n as =
      .ok (List.zipWith (fun (s : DType × List ℕ) rows => packed s.1 s.2 rows) sig its) := by
  induction h with
  | nil => rfl
  | @cons dt sh rows items sig as its h hn t ih =>
    simp only [RS.exportComps, ih, h, List.zipWith_cons_cons]
    match items with
    | [] => rfl
    | [x] => rfl
    | x :: y :: l => rfl

theorem Store.export {n : ℕ} {sig : Sig} {as : List (Option (Buf K))}
    {its : List (List (NDVal K))} (h : Store n sig as its) :
    (⟨sig.map Prod.snd, some as, n⟩ : FArr K).export = .ok (packedAll sig its) := by
  simp only [FArr.export, h.exportComps, List.length_map, packedAll]
  have hl : (List.zipWith (fun (s : DType × List ℕ) rows => packed s.1 s.2 rows) sig its).length =
      sig.length := by simp [h.length.2]
  generalize List.zipWith (fun (s : DType × List ℕ) rows => packed s.1 s.2 rows) sig its = l at hl
  match l with
  | [] => simp at hl; simp [← hl]
  | [a] => simp at hl; simp [← hl]
  | a :: b :: l => simp at hl; simp [← hl]

theorem FArr.append_eq (zero : K) (f : FArr K) (data : AppendArg K) :
    f.append zero data = match data.comps with
      | .error e => (f, .error e)
      | .ok l =>
        if f.shapes.length ≠ l.length then
          ({ f with array := some (f.array.getD (List.replicate f.shapes.length none)) },
            .error .valueError)
        else
          match appendLoop zero f.len f.shapes
            (f.array.getD (List.replicate f.shapes.length none)) l with
          | (arrs', .error e) => ({ f with array := some arrs' }, .error e)
          | (arrs', .ok none) => ({ f with array := some arrs' }, .error .nameError)
          | (arrs', .ok (some n)) => (⟨f.shapes, some arrs', f.len + n⟩, .ok ()) := rfl

theorem Supplies.comps {sig : Sig} {n : ℕ} {arg : AppendArg K} {its : List (List (NDVal K))}
    (h : Supplies sig n arg its) : ∃ ds, arg.comps = .ok ds ∧ IsBatches n sig ds its := by
  cases h with
  | seq h => exact ⟨_, rfl, h⟩
  | nd h => exact ⟨_, rfl, h⟩
  | fa h hlen hn =>
    refine ⟨_, ?_, isBatches_packed sig its hlen hn⟩
    simp only [AppendArg.comps, h, packedAll]
    generalize List.zipWith (fun (s : DType × List ℕ) rows => packed s.1 s.2 rows) sig its = l
    match l with
    | [] => rfl
    | [a] => rfl
    | a :: b :: l => rfl

theorem Store.append {n len : ℕ} {sig : Sig} (hne : sig ≠ []) {as : List (Option (Buf K))}
    {its new : List (List (NDVal K))} (hs : Store len sig as its) (zero : K) {arg : AppendArg K}
    (h : Supplies sig n arg new) :
    ∃ as', (⟨sig.map Prod.snd, some as, len⟩ : FArr K).append zero arg =
        (⟨sig.map Prod.snd, some as', len + n⟩, .ok ()) ∧
      Store (len + n) sig as' (List.zipWith (· ++ ·) its new) ∧
      ∀ n₁, CapOk zero n₁ len as → CapOk zero n₁ (len + n) as' := by
  obtain ⟨ds, h1, h2⟩ := h.comps
  obtain ⟨as', h3, h4⟩ := hs.appendLoop zero h2
  refine ⟨as', ?_, h4⟩
  rw [FArr.append_eq, h1]
  simp [h2.length.1, h3, hne]

theorem Supplies.first {n : ℕ} {sig : Sig} (hne : sig ≠ [])
    {new : List (List (NDVal K))} (zero : K) {arg : AppendArg K} (h : Supplies sig n arg new) :
    ∃ as', (FArr.new (sig.map Prod.snd) : FArr K).append zero arg =
        (⟨sig.map Prod.snd, some as', n⟩, .ok ()) ∧
      as' = List.zipWith (fun s rows => some ⟨s.1, s.2, rows⟩) sig new ∧
      Store n sig as' new := by
  obtain ⟨ds, h1, h2⟩ := h.comps
  obtain ⟨as', h3, h4, h5⟩ := appendLoop_fresh zero h2
  refine ⟨as', ?_, h4, h5⟩
  rw [FArr.append_eq, h1]
  simp [FArr.new, h2.length.1, h3, hne]

theorem Supplies.length {n : ℕ} {sig : Sig} {new : List (List (NDVal K))} {arg : AppendArg K}
    (h : Supplies sig n arg new) : new.length = sig.length := by
  obtain ⟨ds, _, h2⟩ := h.comps
  exact h2.length.2

theorem Hist.items_eq_fold (m : ℕ) (acc : List (List (NDVal K))) (hacc : acc.length = m)
    (h : Hist K) (hl : ∀ e ∈ h, e.2.2.length = m) :
    h.foldl (fun a e => List.zipWith (· ++ ·) a e.2.2) acc =
      List.zipWith (· ++ ·) acc (Hist.items m h) := by
  induction h generalizing acc with
  | nil =>
    simp only [List.foldl_nil, Hist.items, List.flatMap_nil]
    apply List.ext_getElem <;> simp [hacc]
  | cons e h ih =>
    have he := hl e (by simp)
    rw [List.foldl_cons, ih _ (by simp [hacc, he]) fun e he => hl e (by simp [he])]
    apply List.ext_getElem
    · simp [Hist.items, hacc, he]
    · intro i h1 h2
      simp [Hist.items, List.getD, he, hacc] at h1 ⊢
      rw [List.getElem?_eq_getElem (by omega)]
      simp

theorem Store.appendAll {len : ℕ} {sig : Sig} (hne : sig ≠ []) {as : List (Option (Buf K))}
    {its : List (List (NDVal K))} (hs : Store len sig as its) (zero : K) (h : Hist K)
    (hh : ∀ e ∈ h, Supplies sig e.2.1 e.1 e.2.2) :
    ∃ as', (⟨sig.map Prod.snd, some as, len⟩ : FArr K).appendAll zero (h.map Prod.fst) =
        .ok ⟨sig.map Prod.snd, some as', len + h.total⟩ ∧
      Store (len + h.total) sig as' (List.zipWith (· ++ ·) its (Hist.items sig.length h)) ∧
      ∀ n₁, CapOk zero n₁ len as → CapOk zero n₁ (len + h.total) as' := by
  induction h generalizing len as its with
  | nil =>
    refine ⟨as, by simp [FArr.appendAll, Hist.total], ?_, by simp [Hist.total]⟩
    have : List.zipWith (· ++ ·) its (Hist.items sig.length ([] : Hist K)) = its := by
      rw [← Hist.items_eq_fold sig.length its hs.length.2 [] (by simp)]; rfl
    rw [this]; simpa [Hist.total] using hs
  | cons e h ih =>
    obtain ⟨as', h1, h2, hc⟩ := hs.append hne zero (hh e (by simp))
    obtain ⟨as'', h3, h4, hc'⟩ := ih h2 fun e he => hh e (by simp [he])
    refine ⟨as'', ?_, ?_, fun n₁ h0 => by
      simpa [Hist.total, add_assoc] using hc' n₁ (hc n₁ h0)⟩
    · simp only [List.map_cons, FArr.appendAll, h1, h3]
      simp [Hist.total, add_assoc]
    · have : List.zipWith (· ++ ·) its (Hist.items sig.length (e :: h)) =
          List.zipWith (· ++ ·) (List.zipWith (· ++ ·) its e.2.2) (Hist.items sig.length h) := by
        have hl : ∀ e' ∈ e :: h, e'.2.2.length = sig.length := fun e' he' => (hh e' he').length
        rw [← Hist.items_eq_fold sig.length its hs.length.2 (e :: h) hl, List.foldl_cons,
          Hist.items_eq_fold sig.length _ (by simp [hs.length.2, hl e (by simp)]) h
            fun e' he' => hl e' (by simp [he'])]
      rw [this]
      simpa [Hist.total, add_assoc] using h4

/-- Main refinement lemma: after a nonempty history on a fresh array. -/
theorem hist_run {sig : Sig} (hne : sig ≠ []) (zero : K) (h : Hist K) (hh0 : h ≠ [])
    (hh : ∀ e ∈ h, Supplies sig e.2.1 e.1 e.2.2) :
    ∃ as, (FArr.new (sig.map Prod.snd) : FArr K).appendAll zero (h.map Prod.fst) =
        .ok ⟨sig.map Prod.snd, some as, h.total⟩ ∧
      Store h.total sig as (Hist.items sig.length h) ∧
      CapOk zero (h.head hh0).2.1 h.total as := by
  cases h with
  | nil => exact absurd rfl hh0
  | cons e h =>
    obtain ⟨as, h1, has, h2⟩ := (hh e (by simp)).first hne zero
    obtain ⟨as', h3, h4, hc⟩ := h2.appendAll hne zero h fun e he => hh e (by simp [he])
    have he := (hh e (by simp)).length
    refine ⟨as', ?_, ?_, ?_⟩
    · simp only [List.map_cons, FArr.appendAll, h1, h3]
      simp [Hist.total]
    rotate_left
    · simp only [List.head_cons]
      have := hc e.2.1 (fun b hb => ⟨⟨0, ?_⟩, ?_⟩)
      · simpa [Hist.total] using this
      · have : b.rows.length = e.2.1 := by
          rw [has] at hb
          have hm : b.rows ∈ e.2.2 := by
            rw [List.mem_iff_getElem] at hb
            obtain ⟨i, hi, hb⟩ := hb
            simp at hb
            rw [← hb]; exact List.getElem_mem _
          exact h2.each _ hm
        omega
      · have : b.rows.length = e.2.1 := by
          rw [has] at hb
          have hm : b.rows ∈ e.2.2 := by
            rw [List.mem_iff_getElem] at hb
            obtain ⟨i, hi, hb⟩ := hb
            simp at hb
            rw [← hb]; exact List.getElem_mem _
          exact h2.each _ hm
        intro v hv
        rw [← this, List.drop_length] at hv
        cases hv
    · have : Hist.items sig.length (e :: h) =
          List.zipWith (· ++ ·) e.2.2 (Hist.items sig.length h) := by
        apply List.ext_getElem
        · simp [Hist.items, he]
        · intro i h1 h2
          simp [Hist.items, List.getD] at h1 ⊢
          rw [List.getElem?_eq_getElem (by omega)]
          simp
      rw [this]
      simpa [Hist.total] using h4

end RS
