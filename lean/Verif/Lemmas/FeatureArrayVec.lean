import Verif.Lemmas.FeatureArray

/-
Helper lemmas about `vectorize`.
-/
set_option autoImplicit false

namespace RS

theorem hconcat_spec (c : ℕ) (ms : List (List (List ℂ))) (hne : ms ≠ [])
    (h : ∀ m ∈ ms, m.length = c) :
    ∃ r, hconcat ms = .ok r ∧ r.length = c ∧
      ∀ i, i < c → r.getD i [] = (ms.map fun m => m.getD i []).flatten := by
  match ms with
  | [] => exact absurd rfl hne
  | [m] => exact ⟨m, rfl, h m (by simp), by simp⟩
  | m :: m' :: ms =>
    obtain ⟨r, h1, h2, h3⟩ := hconcat_spec c (m' :: ms) (by simp) fun x hx => h x (by simp [hx])
    have hm := h m (by simp)
    refine ⟨List.zipWith (· ++ ·) m r, ?_, ?_, ?_⟩
    · simp [hconcat, h1, h2, hm]
    · simp [hm, h2]
    · intro i hi
      have := h3 i hi
      rw [List.map_cons, List.flatten_cons, ← this]
      simp [List.getD, hm, h2, hi]

theorem vecComp_length (b : Buf ℂ) : (vecComp b).length = b.rows.length := by
  unfold vecComp; split <;> simp

theorem entry_zeros (p i j : ℕ) : (NDVal.zeros (0 : ℂ) [p, p]).entry 0 i j = 0 := by
  simp only [NDVal.zeros, NDVal.entry, NDVal.unstack, List.getElem?_replicate]
  by_cases h1 : i < p <;> by_cases h2 : j < p <;> simp [h1, h2]

theorem vecTriu_iff (dt : DType) (sh : List ℕ) (items : List (NDVal ℂ)) (k : ℕ) :
    vecTriu ⟨dt, sh, items ++ List.replicate k (NDVal.zeros 0 sh)⟩ ↔
      ∃ p, sh = [p, p] ∧ HermitianStack p items := by
  unfold vecTriu HermitianStack
  constructor
  · rintro ⟨p, h1, h2 | h2⟩
    · exact ⟨p, h1, Or.inl fun v hv => h2 v (by simp [hv])⟩
    · exact ⟨p, h1, Or.inr fun v hv => h2 v (by simp [hv])⟩
  · rintro ⟨p, h1, h2⟩
    refine ⟨p, h1, ?_⟩
    have hz : ∀ v ∈ List.replicate k (NDVal.zeros (0 : ℂ) sh), ∀ i j, v.entry 0 i j = 0 := by
      intro v hv i j
      rw [List.mem_replicate] at hv
      rw [hv.2, h1, entry_zeros]
    rcases h2 with h2 | h2
    · left
      intro v hv i hi j hj
      rcases List.mem_append.1 hv with hv | hv
      · exact h2 v hv i hi j hj
      · rw [hz v hv, hz v hv]; norm_num
    · right
      intro v hv i hi j hj
      rcases List.mem_append.1 hv with hv | hv
      · exact h2 v hv i hi j hj
      · rw [hz v hv, hz v hv]; norm_num

theorem vecComp_getD {len : ℕ} (b : Buf ℂ) (items : List (NDVal ℂ)) (h : b.rows.take len = items)
    (hz : ∀ v ∈ b.rows.drop len, v = NDVal.zeros 0 b.ish) (i : ℕ) (hi : i < items.length) :
    (vecComp b).getD i [] = flatItem b.ish items items[i] := by
  obtain ⟨dt, sh, rows⟩ := b
  have hr : rows = items ++ List.replicate (rows.drop len).length (NDVal.zeros 0 sh) := by
    conv_lhs => rw [← List.take_append_drop len rows, h]
    rw [List.eq_replicate_iff.2 ⟨rfl, hz⟩, List.length_replicate]
  have hg : rows[i]? = some items[i] := by
    rw [hr, List.getElem?_append_left hi, List.getElem?_eq_getElem hi]
  have ht : vecTriu ⟨dt, sh, rows⟩ ↔ ∃ p, sh = [p, p] ∧ HermitianStack p items := by
    conv_lhs => rw [hr]
    exact vecTriu_iff dt sh items _
  unfold vecComp flatItem
  by_cases hc : vecTriu ⟨dt, sh, rows⟩
  · rw [if_pos hc, if_pos (ht.1 hc)]
    simp [List.getD, hg]
  · rw [if_neg hc, if_neg (fun x => hc (ht.2 x))]
    simp [List.getD, hg]

theorem store_vectorize {n₁ n : ℕ} {sig : Sig} (hne : sig ≠ []) {as : List (Option (Buf ℂ))}
    {its : List (List (NDVal ℂ))} (h : Store n sig as its) (hc : CapOk 0 n₁ n as)
    (hn : 0 < n) (hle : n₁ ≤ n) :
    ∃ rows, (⟨sig.map Prod.snd, some as, n⟩ : FArr ℂ).vectorize = .ok rows ∧
      rows.length = n₁ + 1000 * ((n - n₁ + 999) / 1000) ∧
      ∀ i, i < n → rows.getD i [] =
        (List.zipWith (fun (s : DType × List ℕ) (items : List (NDVal ℂ)) =>
          (items[i]?).elim [] (flatItem s.2 items)) sig its).flatten := by
  have hsome : as.any Option.isNone = false := by
    clear hc hne
    induction h with
    | nil => rfl
    | cons _ _ _ ih => simpa using ih
  have hne' : as ≠ [] := by
    intro h0; have := h.length.1; rw [h0] at this; exact hne (List.eq_nil_of_length_eq_zero this.symm)
  have hfm : ∀ b, b ∈ as.filterMap id → some b ∈ as := by
    intro b hb; simpa using hb
  have hfne : (as.filterMap id).map vecComp ≠ [] := by
    match as, hne', hsome with
    | some b :: as, _, _ => simp
  have hrow0 : (as.filterMap id).any (fun b => b.rows.length == 0) = false := by
    rw [List.any_eq_false]
    intro b hb
    obtain ⟨⟨k, _, h2, _⟩, _⟩ := hc b (hfm b hb)
    simp only [beq_iff_eq]; omega
  obtain ⟨r, h1, h2, h3⟩ := hconcat_spec (n₁ + 1000 * ((n - n₁ + 999) / 1000)) _ hfne (by
    intro m hm
    obtain ⟨b, hb, rfl⟩ := List.mem_map.1 hm
    rw [vecComp_length, hc.eq b (hfm b hb) hle])
  refine ⟨r, ?_, h2, ?_⟩
  · simp only [FArr.vectorize, if_neg hn.ne', hsome, hrow0, h1]
    rfl
  · intro i hi
    rw [h3 i (by omega)]
    congr 1
    clear h3 h2 h1 hrow0 hfne hfm hne' hsome hne
    induction h with
    | nil => rfl
    | @cons dt sh rows items sig as its h hn t ih =>
      rw [List.filterMap_cons_some (by rfl), List.map_cons, List.map_cons,
        ih fun b hb => hc b (by simp [hb]), List.zipWith_cons_cons]
      congr 1
      rw [vecComp_getD ⟨dt, sh, rows⟩ items h (hc _ (by simp)).2 i (by omega),
        List.getElem?_eq_getElem (by omega)]
      rfl

end RS
