import Verif.Spec.FeatureHeap
import Verif.Lemmas.FeatureArray
import Mathlib.Data.List.Nodup
import Mathlib.Data.List.Perm.Basic
import Mathlib.Data.List.Perm.Lattice
import Mathlib.Algebra.Order.BigOperators.Group.List
import Mathlib.Tactic.Ring

/-
Memory cells, shapes and the growth of buffers.
-/
set_option autoImplicit false

namespace RS
variable {K A B C : Type}

/-! ### entries of nested lists -/

theorem NDVal.ravel_map (f : A → B) : ∀ v : NDVal A, (v.map f).ravel = v.ravel.map f
  | .leaf x => by simp [NDVal.map, NDVal.ravel]
  | .node l => by
    have ih : ∀ v ∈ l, (v.map f).ravel = v.ravel.map f := fun v _ => NDVal.ravel_map f v
    simp only [NDVal.map, NDVal.ravel, List.flatMap_map, List.map_flatMap]
    exact List.flatMap_congr ih

theorem NDVal.map_congr {f g : A → B} : ∀ v : NDVal A, (∀ a ∈ v.ravel, f a = g a) → v.map f = v.map g
  | .leaf x => fun h => by simp [NDVal.map, h x (by simp [NDVal.ravel])]
  | .node l => fun h => by
    have ih : ∀ v ∈ l, v.map f = v.map g := fun v hv => NDVal.map_congr v fun a ha =>
      h a (by simp only [NDVal.ravel, List.mem_flatMap]; exact ⟨v, hv, ha⟩)
    simp only [NDVal.map]
    rw [List.map_congr_left ih]

theorem NDVal.map_unstack (f : A → B) (v : NDVal A) :
    (v.map f).unstack = v.unstack.map (NDVal.map f) := by
  cases v <;> simp [NDVal.map, NDVal.unstack]

theorem HasShape.map {f : A → B} : ∀ {s : List ℕ} {v : NDVal A}, HasShape s v → HasShape s (v.map f)
  | [], .leaf _, _ => by simp [NDVal.map, HasShape]
  | n :: s, .node l, h => by
    simp only [HasShape] at h
    simp only [NDVal.map, HasShape, List.length_map]
    refine ⟨h.1, ?_⟩
    intro v hv
    obtain ⟨w, hw, rfl⟩ := List.mem_map.1 hv
    exact HasShape.map (h.2 w hw)

theorem HasShape.length : ∀ {s : List ℕ} {v : NDVal A}, HasShape s v → v.ravel.length = s.prod
  | [], .leaf _, _ => by simp [NDVal.ravel]
  | n :: s, .node l, h => by
    simp only [HasShape] at h
    simp only [NDVal.ravel, List.length_flatMap, List.prod_cons]
    rw [List.map_congr_left (g := fun _ => s.prod) fun v hv => HasShape.length (h.2 v hv)]
    simp [h.1]

theorem HasShape.ext : ∀ {s : List ℕ} {v w : NDVal A}, HasShape s v → HasShape s w →
    v.ravel = w.ravel → v = w
  | [], .leaf _, .leaf _, _, _, h => by simpa [NDVal.ravel] using h
  | n :: s, .node l, .node l', hv, hw, h => by
    have ih : ∀ v w : NDVal A, HasShape s v → HasShape s w → v.ravel = w.ravel → v = w :=
      fun v w => HasShape.ext
    simp only [HasShape] at hv hw
    congr 1
    have hlen : l.length = l'.length := hv.1.trans hw.1.symm
    simp only [NDVal.ravel] at h
    replace hv := hv.2
    replace hw := hw.2
    clear n
    induction l generalizing l' with
    | nil => exact (List.length_eq_zero_iff.1 hlen.symm).symm
    | cons v l ihl =>
      match l', hlen with
      | w :: l', hlen =>
        simp only [List.flatMap_cons] at h
        have h1 := hv v (by simp)
        have h2 := hw w (by simp)
        have h3 := List.append_inj h (h1.length.trans h2.length.symm)
        rw [ih v w h1 h2 h3.1, ihl l' (by simpa using hlen) h3.2 (fun v hv' => hv v (by simp [hv']))
          fun v hv' => hw v (by simp [hv'])]

theorem HasShape.unstack {n : ℕ} {s : List ℕ} {v : NDVal A} (h : HasShape (n :: s) v) :
    v = .node v.unstack ∧ v.unstack.length = n ∧ ∀ w ∈ v.unstack, HasShape s w := by
  cases v with
  | leaf => simp [HasShape] at h
  | node l => exact ⟨rfl, h.1, h.2⟩

theorem HasShape.zeros (zero : A) : ∀ s : List ℕ, HasShape s (NDVal.zeros zero s)
  | [] => by simp [NDVal.zeros, HasShape]
  | n :: s => by
    simp only [NDVal.zeros, HasShape, List.length_replicate, true_and]
    intro v hv
    rw [(List.mem_replicate.1 hv).2]
    exact HasShape.zeros zero s

theorem HasShape.bcast : ∀ {src dst : List ℕ} {v : NDVal A}, bcastOk src dst = true →
    HasShape src v → HasShape dst (NDVal.bcast src dst v)
  | [], [], .leaf _, _, _ => by simp [NDVal.bcast, HasShape]
  | s :: ss, d :: ds, .node l, hb, h => by
    simp only [bcastOk, Bool.and_eq_true, Bool.or_eq_true, beq_iff_eq] at hb
    simp only [HasShape] at h
    unfold NDVal.bcast
    split
    · rename_i hsd
      subst hsd
      simp only [HasShape, List.length_map]
      refine ⟨h.1, fun v hv => ?_⟩
      obtain ⟨w, hw, rfl⟩ := List.mem_map.1 hv
      exact HasShape.bcast hb.2 (h.2 w hw)
    · rename_i hsd
      match l, h with
      | [], h => exact absurd h.1 (by simp; omega)
      | x :: l, h =>
        simp only [HasShape, List.length_replicate, true_and]
        intro v hv
        rw [(List.mem_replicate.1 hv).2]
        exact HasShape.bcast hb.2 (h.2 x (by simp))

theorem NDVal.map_zeros (f : A → B) (zero : A) : ∀ s, (NDVal.zeros zero s).map f = NDVal.zeros (f zero) s
  | [] => by simp [NDVal.zeros, NDVal.map]
  | n :: s => by simp [NDVal.zeros, NDVal.map, NDVal.map_zeros f zero s]

/-! ### new cells -/

theorem addrs_shape : ∀ (s : List ℕ) (b : ℕ), HasShape s (addrs s b)
  | [], _ => by simp [addrs, HasShape]
  | n :: s, b => by
    simp only [addrs, HasShape, List.length_map, List.length_range, true_and]
    intro v hv
    obtain ⟨i, _, rfl⟩ := List.mem_map.1 hv
    exact addrs_shape s _

theorem addrs_ravel : ∀ (s : List ℕ) (b : ℕ), (addrs s b).ravel = List.range' b s.prod
  | [], b => by simp [addrs, NDVal.ravel]
  | n :: s, b => by
    simp only [addrs, NDVal.ravel, List.flatMap_map]
    rw [List.flatMap_congr (g := fun i => List.range' (b + i * s.prod) s.prod) fun i _ =>
      addrs_ravel s _]
    rw [List.prod_cons]
    induction n with
    | zero => simp
    | succ n ih =>
      rw [List.range_succ, List.flatMap_append, ih, List.flatMap_singleton, Nat.succ_mul,
        List.range'_append_1]

theorem CellHeap.alloc_old (h : CellHeap K) (vals : List K) {a : ℕ} (ha : a < h.next) :
    (h.alloc vals).get a = h.get a := by simp [CellHeap.alloc, ha]

theorem CellHeap.alloc_new (h : CellHeap K) (vals : List K) :
    (List.range' h.next vals.length).map (h.alloc vals).get = vals := by
  apply List.ext_getElem
  · simp
  · intro i h1 h2
    simp [CellHeap.alloc, List.getD, List.getElem?_eq_getElem h2]

theorem CellHeap.store_other (h : CellHeap K) {dst : List ℕ} {vals : List K} {a : ℕ} (ha : a ∉ dst) :
    (h.store dst vals).get a = h.get a := by
  simp only [CellHeap.store]
  generalize h.get = m
  induction dst generalizing m vals with
  | nil => rfl
  | cons c dst ih =>
    cases vals with
    | nil => rfl
    | cons x vals =>
      simp only [List.zip_cons_cons, List.foldl_cons]
      rw [ih (fun h => ha (by simp [h]))]
      exact Function.update_of_ne (fun h => ha (by simp [h])) _ _

theorem CellHeap.store_same (h : CellHeap K) {dst : List ℕ} {vals : List K} (hn : dst.Nodup)
    (hl : dst.length = vals.length) : dst.map (h.store dst vals).get = vals := by
  simp only [CellHeap.store]
  generalize h.get = m
  induction dst generalizing m vals with
  | nil => cases vals <;> simp_all
  | cons c dst ih =>
    cases vals with
    | nil => simp at hl
    | cons x vals =>
      rw [List.nodup_cons] at hn
      simp only [List.zip_cons_cons, List.foldl_cons, List.map_cons, List.cons.injEq]
      refine ⟨?_, ih hn.2 (by simpa using hl) _⟩
      have := CellHeap.store_other ⟨0, Function.update m c x⟩ (vals := vals) hn.1
      simp only [CellHeap.store] at this
      rw [this, Function.update_self]

/-! ### rows -/

theorem mem_cells {rows : List (NDVal A)} {c : A} : c ∈ cells rows ↔ ∃ r ∈ rows, c ∈ r.ravel := by
  simp [cells]

theorem ravel_node (l : List (NDVal A)) : (NDVal.node l).ravel = cells l := by
  simp [NDVal.ravel, cells]

theorem cells_append (l l' : List (NDVal A)) : cells (l ++ l') = cells l ++ cells l' := by
  simp [cells]

theorem cells_map (f : A → B) (l : List (NDVal A)) : cells (l.map (NDVal.map f)) = (cells l).map f := by
  simp only [cells, List.flatMap_map, List.map_flatMap]
  exact List.flatMap_congr fun v _ => NDVal.ravel_map f v

theorem rows_map_congr {f g : A → B} {rows : List (NDVal A)} (h : ∀ c ∈ cells rows, f c = g c) :
    rows.map (NDVal.map f) = rows.map (NDVal.map g) :=
  List.map_congr_left fun r hr => NDVal.map_congr r fun c hc => h c (mem_cells.2 ⟨r, hr, hc⟩)

theorem rows_ext {s : List ℕ} {l l' : List (NDVal A)} (hl : l.length = l'.length)
    (h1 : ∀ r ∈ l, HasShape s r) (h2 : ∀ r ∈ l', HasShape s r) (h : cells l = cells l') : l = l' := by
  have := HasShape.ext (s := l.length :: s) (v := .node l) (w := .node l') ⟨rfl, h1⟩ ⟨hl.symm, h2⟩
    (by rw [ravel_node, ravel_node, h])
  simpa using this

theorem rows_shape_map {s : List ℕ} {f : A → B} {rows : List (NDVal A)}
    (h : ∀ r ∈ rows, HasShape s r) : ∀ r ∈ rows.map (NDVal.map f), HasShape s r := by
  intro r hr
  obtain ⟨w, hw, rfl⟩ := List.mem_map.1 hr
  exact (h w hw).map

theorem cells_take_drop (rows : List (NDVal A)) (n : ℕ) :
    cells rows = cells (rows.take n) ++ cells (rows.drop n) := by
  rw [← cells_append, List.take_append_drop]

theorem growRows_shape {zero : K} {s : List ℕ} {rows : List (NDVal K)} {t : ℕ}
    (h : ∀ r ∈ rows, HasShape s r) : ∀ r ∈ growRows (NDVal.zeros zero s) rows t, HasShape s r := by
  obtain ⟨k, hk, _⟩ := growRows_spec (NDVal.zeros zero s) rows t
  rw [hk]
  intro r hr
  rcases List.mem_append.1 hr with hr | hr
  · exact h r hr
  · rw [(List.mem_replicate.1 hr).2]
    exact HasShape.zeros zero s

theorem CellHeap.grow_spec (h : CellHeap K) (zero : K) (sh ish : List ℕ) (rows : List (NDVal ℕ)) (t : ℕ)
    (hs : ∀ r ∈ rows, HasShape ish r) (hlt : ∀ c ∈ cells rows, c < h.next)
    (hsh : rows.length < t → ish = sh) :
    (h.grow zero sh rows t).2.map (NDVal.map (h.grow zero sh rows t).1.get) =
      growRows (NDVal.zeros zero sh) (rows.map (NDVal.map h.get)) t ∧
    (∀ a < h.next, (h.grow zero sh rows t).1.get a = h.get a) ∧
    h.next ≤ (h.grow zero sh rows t).1.next ∧
    ((h.grow zero sh rows t).2 = rows ∨ ((cells (h.grow zero sh rows t).2).Nodup ∧
      ∀ c ∈ cells (h.grow zero sh rows t).2, h.next ≤ c)) ∧
    (∀ c ∈ cells (h.grow zero sh rows t).2, c < (h.grow zero sh rows t).1.next) ∧
    (∀ r ∈ (h.grow zero sh rows t).2, HasShape ish r) ∧
    (rows.length < t → ∀ c ∈ cells (h.grow zero sh rows t).2, h.next ≤ c) := by
  by_cases hlt' : rows.length < t
  · simp only [CellHeap.grow, if_pos hlt']
    obtain rfl := hsh hlt'
    set vals := growRows (NDVal.zeros zero ish) (rows.map (NDVal.map h.get)) t with hv
    have hvs : ∀ r ∈ vals, HasShape ish r := growRows_shape (rows_shape_map hs)
    have ha := (addrs_shape (vals.length :: ish) h.next).unstack
    have hc : cells (addrs (vals.length :: ish) h.next).unstack =
        List.range' h.next (vals.length :: ish).prod := by
      rw [← addrs_ravel]
      conv_rhs => rw [ha.1]
      rw [ravel_node]
    have hp : (vals.length :: ish).prod = (cells vals).length := by
      have := HasShape.length (s := vals.length :: ish) (v := .node vals) ⟨rfl, hvs⟩
      rw [← this, ravel_node]
    have hbd : ∀ c ∈ cells (addrs (vals.length :: ish) h.next).unstack,
        h.next ≤ c ∧ c < h.next + (cells vals).length := by
      intro c hc'
      rw [hc, List.mem_range'_1, hp] at hc'
      exact hc'
    refine ⟨?_, fun a ha => h.alloc_old _ ha, by simp [CellHeap.alloc], Or.inr ⟨?_, fun c hc => (hbd c hc).1⟩,
      fun c hc => (hbd c hc).2, ha.2.2, fun _ c hc => (hbd c hc).1⟩
    · apply rows_ext (s := ish)
      · rw [List.length_map, ha.2.1]
      · exact rows_shape_map ha.2.2
      · exact hvs
      · rw [cells_map, hc, hp]
        exact h.alloc_new _
    · rw [hc]; exact List.nodup_range'
  · have hg : h.grow zero sh rows t = (h, rows) := by simp only [CellHeap.grow, if_neg hlt']
    rw [hg]
    refine ⟨?_, fun a _ => rfl, le_rfl, Or.inl rfl, hlt, hs, fun h => absurd h hlt'⟩
    rw [growRows_of_le]
    rw [List.length_map]; omega

/-! ### one component -/

/-- A buffer in memory. -/
structure BufOk (next len : ℕ) (b : Buf ℕ) : Prop where
  shape : ∀ r ∈ b.rows, HasShape b.ish r
  lt : ∀ c ∈ cells b.rows, c < next
  le : len ≤ b.rows.length
  nodup : (cells (b.rows.drop len)).Nodup
  disj : ∀ c ∈ cells (b.rows.drop len), c ∉ cells (b.rows.take len)

/-- The arrays in a list given to `append`. -/
def compCells : Comp ℕ → List ℕ
  | .other => []
  | .arr x => x.val.ravel

def CompOk : Comp ℕ → Prop
  | .other => True
  | .arr x => HasShape x.shape x.val

theorem count_map (f : A → B) (sh : List ℕ) (d : Comp A) : (d.map f).count sh = d.count sh := by
  cases d with
  | other => rfl
  | arr x => simp [Comp.map, Comp.count, NArr.map, NDVal.map_unstack]

theorem hAppendComp_filled (zero : K) (h : CellHeap K) (len : ℕ) (sh : List ℕ) (b : Buf ℕ) (d : Comp ℕ)
    (hb : BufOk h.next len b) (hd : CompOk d) (hdlt : ∀ c ∈ compCells d, c < h.next)
    (hdd : ∀ c ∈ compCells d, c ∉ cells (b.rows.drop len)) :
    ∃ h' b' r, hAppendComp zero h len sh (some b) d = (h', some b', r) ∧
      appendComp zero len sh (some (b.map h.get)) (d.map h.get) = (some (b'.map h'.get), r) ∧
      h.next ≤ h'.next ∧
      (∀ a < h.next, a ∉ cells (b.rows.drop len) → h'.get a = h.get a) ∧
      BufOk h'.next len b' ∧
      (b'.rows = b.rows ∨ ((cells b'.rows).Nodup ∧ ∀ c ∈ cells b'.rows, h.next ≤ c)) ∧
      ∀ n, r = .ok n → len + n ≤ b'.rows.length ∧ n = d.count sh ∧
        (b.rows.length < len + n → ∀ c ∈ cells b'.rows, h.next ≤ c) := by
  have htriv : ∀ e, (∃ h' b' r, ((h, some b, (.error e : Py ℕ)) : CellHeap K × Option (Buf ℕ) × Py ℕ) =
        (h', some b', r) ∧
      ((some (b.map h.get), .error e) : Option (Buf K) × Py ℕ) = (some (b'.map h'.get), r) ∧
      h.next ≤ h'.next ∧
      (∀ a < h.next, a ∉ cells (b.rows.drop len) → h'.get a = h.get a) ∧
      BufOk h'.next len b' ∧
      (b'.rows = b.rows ∨ ((cells b'.rows).Nodup ∧ ∀ c ∈ cells b'.rows, h.next ≤ c)) ∧
      ∀ n, r = .ok n → len + n ≤ b'.rows.length ∧ n = d.count sh ∧
        (b.rows.length < len + n → ∀ c ∈ cells b'.rows, h.next ≤ c)) :=
    fun e => ⟨h, b, .error e, rfl, rfl, le_rfl, fun _ _ _ => rfl, hb, Or.inl rfl, by simp⟩
  cases d with
  | other => exact htriv _
  | arr x =>
    simp only [hAppendComp, appendComp, Comp.map, NArr.map, Buf.map]
    by_cases h1 : x.dtype ≠ b.dtype
    · simp only [if_pos h1]; exact htriv _
    simp only [if_neg h1]
    by_cases h2 : x.shape.length ≠ sh.length ∧ x.shape.length ≠ sh.length + 1
    · simp only [if_pos h2]; exact htriv _
    simp only [if_neg h2]
    set ish := (if x.shape.length = sh.length then x.shape else x.shape.tail) with hish
    set new := (if x.shape.length = sh.length then [x.val] else x.val.unstack) with hnew
    have hnewm : (if x.shape.length = sh.length then [x.val.map h.get] else (x.val.map h.get).unstack) =
        new.map (NDVal.map h.get) := by
      rw [hnew]
      split
      · rfl
      · exact NDVal.map_unstack _ _
    have hcount : new.length = (Comp.arr x).count sh := by
      rw [hnew]
      simp only [Comp.count]
      split <;> simp
    have hdim : ¬ x.shape.length = sh.length → x.shape.length = sh.length + 1 := fun hne => by
      by_contra hh; exact h2 ⟨hne, hh⟩
    have hnsh : ∀ r ∈ new, HasShape ish r := by
      rw [hnew, hish]
      simp only [CompOk] at hd
      split
      · simpa using hd
      · rename_i hne
        match hx : x.shape, hd with
        | [], hd => exact absurd (hdim hne) (by simp [hx])
        | n :: s, hd => exact hd.unstack.2.2
    have hncell : ∀ c ∈ cells new, c ∈ x.val.ravel := by
      rw [hnew]
      intro c hc
      split at hc
      · simpa [cells] using hc
      · rename_i hne
        match hx : x.shape, hd with
        | [], hd => exact absurd (hdim hne) (by simp [hx])
        | n :: s, hd =>
          have hd' : HasShape (n :: s) x.val := by simpa [CompOk, hx] using hd
          rw [hd'.unstack.1, ravel_node]; exact hc
    rw [hnewm]
    simp only [List.length_map]
    by_cases h3 : b.rows.length < len + new.length ∧ b.ish ≠ sh
    · simp only [if_pos h3]; exact htriv _
    simp only [if_neg h3]
    obtain ⟨g1, g2, g3, g4, g5, g6, g7⟩ := h.grow_spec zero sh b.ish b.rows (len + new.length) hb.shape
      hb.lt (fun hl => by by_contra hne; exact h3 ⟨hl, hne⟩)
    set g := h.grow zero sh b.rows (len + new.length) with hg
    have hglen : len + new.length ≤ g.2.length := by
      have h4 := congrArg List.length g1
      rw [List.length_map] at h4
      rw [h4]
      exact (growRows_length_ge _ _ _).1
    -- spare cells of the grown buffer
    have hgn : (cells (g.2.drop len)).Nodup ∧ ∀ c ∈ cells (g.2.drop len), c ∉ cells (g.2.take len) := by
      rcases g4 with g4 | g4
      · rw [g4]; exact ⟨hb.nodup, hb.disj⟩
      · have h5 := g4.1
        rw [cells_take_drop g.2 len, List.nodup_append] at h5
        exact ⟨h5.2.1, fun c hc hc' => h5.2.2 c hc' c hc rfl⟩
    have hgok : ∀ h' : CellHeap K, h'.next = g.1.next → BufOk h'.next len ⟨b.dtype, b.ish, g.2⟩ := fun h' hh =>
      ⟨g6, by rw [hh]; exact g5, by simp only; omega, hgn.1, hgn.2⟩
    by_cases h4 : bcastOk ish b.ish = true
    · simp only [if_pos h4]
      set vals := (if ish = b.ish then new.map (NDVal.map g.1.get) else
        (new.map (NDVal.map g.1.get)).map (NDVal.bcast ish b.ish)) with hvals
      set dst := (g.2.drop len).take new.length with hdst
      have hvl : vals.length = new.length := by rw [hvals]; split <;> simp
      have hvs : ∀ r ∈ vals, HasShape b.ish r := by
        rw [hvals]
        split
        · rename_i hh
          rw [← hh]; exact rows_shape_map hnsh
        · intro r hr
          obtain ⟨w, hw, rfl⟩ := List.mem_map.1 hr
          exact (rows_shape_map hnsh w hw).bcast h4
      have hdl : dst.length = vals.length := by
        rw [hvl, hdst, List.length_take, List.length_drop]; omega
      have hds : ∀ r ∈ dst, HasShape b.ish r := fun r hr =>
        g6 r (List.mem_of_mem_drop (List.mem_of_mem_take hr))
      have hcl : (cells dst).length = (cells vals).length := by
        have e1 := HasShape.length (s := dst.length :: b.ish) (v := .node dst) ⟨rfl, hds⟩
        have e2 := HasShape.length (s := dst.length :: b.ish) (v := .node vals) ⟨hdl.symm, hvs⟩
        rw [ravel_node] at e1 e2
        rw [e1, e2]
      have hsplit : cells (g.2.drop len) = cells dst ++ cells (g.2.drop (len + new.length)) := by
        rw [cells_take_drop (g.2.drop len) new.length, List.drop_drop]
      have hnd := hgn.1
      rw [hsplit, List.nodup_append] at hnd
      set h' := g.1.store (cells dst) (cells vals) with hh'
      have hread : dst.map (NDVal.map h'.get) = vals := by
        apply rows_ext (s := b.ish)
        · rw [List.length_map, hdl]
        · exact rows_shape_map hds
        · exact hvs
        · rw [cells_map]; exact CellHeap.store_same _ hnd.1 hcl
      have hkeep : ∀ c, c ∉ cells dst → h'.get c = g.1.get c := fun c hc => CellHeap.store_other _ hc
      refine ⟨h', ⟨b.dtype, b.ish, g.2⟩, .ok new.length, rfl, ?_, g3, ?_, hgok h' rfl, ?_, ?_⟩
      · have hnn : new.map (NDVal.map h.get) = new.map (NDVal.map g.1.get) :=
          rows_map_congr fun c hc => (g2 c (hdlt c (hncell c hc))).symm
        have hv2 : (if ish = b.ish then new.map (NDVal.map h.get) else
          (new.map (NDVal.map h.get)).map (NDVal.bcast ish b.ish)) = vals := by rw [hnn]
        rw [hv2]
        congr 3
        simp only
        unfold writeRows
        rw [hvl, ← g1, ← List.map_take, ← List.map_drop]
        have e1 : g.2 = g.2.take len ++ dst ++ g.2.drop (len + new.length) := by
          rw [List.append_assoc, hdst, ← List.drop_drop, List.take_append_drop,
            List.take_append_drop]
        conv_rhs => rw [e1]
        rw [List.map_append, List.map_append, hread]
        rw [rows_map_congr (rows := g.2.take len) fun c hc => (hkeep c fun hc' =>
            hgn.2 c (by rw [hsplit]; exact List.mem_append_left _ hc') hc).symm,
          rows_map_congr (rows := g.2.drop (len + new.length)) fun c hc =>
            (hkeep c fun hc' => hnd.2.2 c hc' c hc rfl).symm]
      · intro a ha hna
        rw [hkeep a, g2 a ha]
        intro hc
        have hc' : a ∈ cells (g.2.drop len) := by rw [hsplit]; exact List.mem_append_left _ hc
        rcases g4 with g4 | g4
        · rw [g4] at hc'; exact hna hc'
        · have := g4.2 a (by rw [cells_take_drop g.2 len]; exact List.mem_append_right _ hc')
          omega
      · exact g4
      · intro n hn
        obtain rfl : new.length = n := by simpa using hn
        exact ⟨hglen, hcount, g7⟩
    · simp only [if_neg h4]
      refine ⟨g.1, ⟨b.dtype, b.ish, g.2⟩, .error .valueError, rfl, ?_, g3, fun a ha _ => g2 a ha,
        hgok _ rfl, g4, by simp⟩
      simp only [g1]

/-! ### all components -/

/-- The cells of the rows beyond the items. -/
def spareOf (len : ℕ) (bufs : List (Buf ℕ)) : List ℕ := bufs.flatMap fun b => cells (b.rows.drop len)

/-- The cells of the items. -/
def visOf (len : ℕ) (bufs : List (Buf ℕ)) : List ℕ := bufs.flatMap fun b => cells (b.rows.take len)

structure BufsOk (next len : ℕ) (bufs : List (Buf ℕ)) : Prop where
  shape : ∀ b ∈ bufs, ∀ r ∈ b.rows, HasShape b.ish r
  lt : ∀ b ∈ bufs, ∀ c ∈ cells b.rows, c < next
  le : ∀ b ∈ bufs, len ≤ b.rows.length
  nodup : (spareOf len bufs).Nodup
  disj : ∀ c ∈ spareOf len bufs, c ∉ visOf len bufs

theorem BufsOk.cons {next len : ℕ} {b : Buf ℕ} {bufs : List (Buf ℕ)} (hb : BufOk next len b)
    (h : BufsOk next len bufs)
    (h1 : ∀ c ∈ cells (b.rows.drop len), c ∉ spareOf len bufs ∧ c ∉ visOf len bufs)
    (h2 : ∀ c ∈ spareOf len bufs, c ∉ cells (b.rows.take len)) : BufsOk next len (b :: bufs) := by
  refine ⟨?_, ?_, ?_, ?_, ?_⟩
  · intro b' hb'
    rcases List.mem_cons.1 hb' with rfl | hb'
    · exact hb.shape
    · exact h.shape b' hb'
  · intro b' hb'
    rcases List.mem_cons.1 hb' with rfl | hb'
    · exact hb.lt
    · exact h.lt b' hb'
  · intro b' hb'
    rcases List.mem_cons.1 hb' with rfl | hb'
    · exact hb.le
    · exact h.le b' hb'
  · simp only [spareOf, List.flatMap_cons]
    rw [List.nodup_append]
    exact ⟨hb.nodup, h.nodup, fun a ha b hb hab => (h1 a ha).1 (hab ▸ hb)⟩
  · intro c hc
    simp only [spareOf, visOf, List.flatMap_cons, List.mem_append] at hc ⊢
    rintro (hv | hv)
    · rcases hc with hc | hc
      · exact hb.disj c hc hv
      · exact h2 c hc hv
    · rcases hc with hc | hc
      · exact (h1 c hc).2 hv
      · exact h.disj c hc hv

theorem BufsOk.uncons {next len : ℕ} {b : Buf ℕ} {bufs : List (Buf ℕ)}
    (h : BufsOk next len (b :: bufs)) : BufOk next len b ∧ BufsOk next len bufs ∧
    (∀ c ∈ cells (b.rows.drop len), c ∉ spareOf len bufs ∧ c ∉ visOf len bufs) ∧
    (∀ c ∈ spareOf len bufs, c ∉ cells (b.rows.take len)) := by
  have hn := h.nodup
  have hd := h.disj
  simp only [spareOf, List.flatMap_cons] at hn
  rw [List.nodup_append] at hn
  simp only [spareOf, visOf, List.flatMap_cons, List.mem_append] at hd
  refine ⟨⟨h.shape b (by simp), h.lt b (by simp), h.le b (by simp), hn.1, fun c hc hc' =>
    hd c (Or.inl hc) (Or.inl hc')⟩, ⟨fun b hb => h.shape b (by simp [hb]), fun b hb =>
    h.lt b (by simp [hb]), fun b hb => h.le b (by simp [hb]), hn.2.1, fun c hc hc' =>
    hd c (Or.inr hc) (Or.inr hc')⟩, fun c hc => ⟨fun hc' => hn.2.2 c hc c hc' rfl, fun hc' =>
    hd c (Or.inl hc) (Or.inr hc')⟩, fun c hc hc' => hd c (Or.inr hc) (Or.inl hc')⟩

theorem BufsOk.mono {next next' len : ℕ} {bufs : List (Buf ℕ)} (h : BufsOk next len bufs)
    (hn : next ≤ next') : BufsOk next' len bufs :=
  ⟨h.shape, fun b hb c hc => (h.lt b hb c hc).trans_le hn, h.le, h.nodup, h.disj⟩

theorem BufsOk.lt_spare {next len : ℕ} {bufs : List (Buf ℕ)} (h : BufsOk next len bufs) :
    ∀ c ∈ spareOf len bufs, c < next := by
  intro c hc
  obtain ⟨b, hb, hc⟩ := List.mem_flatMap.1 hc
  exact h.lt b hb c (by rw [cells_take_drop b.rows len]; exact List.mem_append_right _ hc)

theorem BufsOk.lt_vis {next len : ℕ} {bufs : List (Buf ℕ)} (h : BufsOk next len bufs) :
    ∀ c ∈ visOf len bufs, c < next := by
  intro c hc
  obtain ⟨b, hb, hc⟩ := List.mem_flatMap.1 hc
  exact h.lt b hb c (by rw [cells_take_drop b.rows len]; exact List.mem_append_left _ hc)

theorem bufs_map_congr {f g : ℕ → K} {len : ℕ} {bufs : List (Buf ℕ)}
    (h1 : ∀ c ∈ spareOf len bufs, f c = g c) (h2 : ∀ c ∈ visOf len bufs, f c = g c) :
    bufs.map (Buf.map f) = bufs.map (Buf.map g) := by
  apply List.map_congr_left
  intro b hb
  simp only [Buf.map]
  rw [rows_map_congr (g := g)]
  intro c hc
  rw [cells_take_drop b.rows len] at hc
  rcases List.mem_append.1 hc with hc | hc
  · exact h2 c (List.mem_flatMap.2 ⟨b, hb, hc⟩)
  · exact h1 c (List.mem_flatMap.2 ⟨b, hb, hc⟩)

theorem comp_map_congr {f g : ℕ → K} (d : Comp ℕ) (h : ∀ c ∈ compCells d, f c = g c) :
    d.map f = d.map g := by
  cases d with
  | other => rfl
  | arr x => simp only [Comp.map, NArr.map]; rw [NDVal.map_congr x.val h]

/-- Where the cells of a buffer come from. -/
theorem from_old {next : ℕ} {rows rows' : List (NDVal ℕ)} (len : ℕ)
    (h : rows' = rows ∨ ((cells rows').Nodup ∧ ∀ c ∈ cells rows', next ≤ c)) :
    (∀ c ∈ cells (rows'.drop len), c ∈ cells (rows.drop len) ∨ next ≤ c) ∧
    (∀ c ∈ cells (rows'.take len), c ∈ cells (rows.take len) ∨ next ≤ c) := by
  rcases h with rfl | h
  · exact ⟨fun c hc => Or.inl hc, fun c hc => Or.inl hc⟩
  · exact ⟨fun c hc => Or.inr (h.2 c (by
      rw [cells_take_drop rows' len]; exact List.mem_append_right _ hc)),
      fun c hc => Or.inr (h.2 c (by
      rw [cells_take_drop rows' len]; exact List.mem_append_left _ hc))⟩

theorem hAppendLoop_filled (zero : K) (len : ℕ) : ∀ (bufs : List (Buf ℕ)) (h : CellHeap K)
    (shs : List (List ℕ)) (ds : List (Comp ℕ)), BufsOk h.next len bufs → (∀ d ∈ ds, CompOk d) →
    (∀ d ∈ ds, ∀ c ∈ compCells d, c < h.next) →
    (∀ d ∈ ds, ∀ c ∈ compCells d, c ∉ spareOf len bufs) →
    shs.length = bufs.length → ds.length = bufs.length →
    ∃ h' bufs' r, hAppendLoop zero len h shs (bufs.map some) ds = (h', bufs'.map some, r) ∧
      appendLoop zero len shs ((bufs.map (Buf.map h.get)).map some) (ds.map (Comp.map h.get)) =
        ((bufs'.map (Buf.map h'.get)).map some, r) ∧
      h.next ≤ h'.next ∧
      (∀ a < h.next, a ∉ spareOf len bufs → h'.get a = h.get a) ∧
      BufsOk h'.next len bufs' ∧ bufs'.length = bufs.length ∧
      (∀ c ∈ spareOf len bufs', c ∈ spareOf len bufs ∨ h.next ≤ c) ∧
      (∀ c ∈ visOf len bufs', c ∈ visOf len bufs ∨ h.next ≤ c) ∧
      ∀ n, r = .ok (some n) → ∀ m, (∀ p ∈ shs.zip ds, p.2.count p.1 = m) →
        n = m ∧ ∀ b' ∈ bufs', len + n ≤ b'.rows.length := by
  intro bufs
  induction bufs with
  | nil =>
    intro h shs ds _ _ _ _ h1 h2
    obtain rfl := List.length_eq_zero_iff.1 h1
    obtain rfl := List.length_eq_zero_iff.1 h2
    exact ⟨h, [], .ok none, by simp [hAppendLoop], by simp [appendLoop], le_rfl, fun _ _ _ => rfl,
      ⟨by simp, by simp, by simp, by simp [spareOf], by simp [spareOf]⟩, rfl, by simp [spareOf],
      by simp [visOf], by simp⟩
  | cons b bufs ih =>
    intro h shs ds hok hdo hdl hdd h1 h2
    match shs, ds, h1, h2 with
    | sh :: shs, d :: ds, h1, h2 =>
    obtain ⟨hb, hbs, hx1, hx2⟩ := hok.uncons
    have hddb : ∀ d' ∈ d :: ds, ∀ c ∈ compCells d', c ∉ cells (b.rows.drop len) := fun d' hd' c hc hc' =>
      hdd d' hd' c hc (by simp only [spareOf, List.flatMap_cons]; exact List.mem_append_left _ hc')
    have hdds : ∀ d' ∈ d :: ds, ∀ c ∈ compCells d', c ∉ spareOf len bufs := fun d' hd' c hc hc' =>
      hdd d' hd' c hc (by
        simp only [spareOf, List.flatMap_cons]; exact List.mem_append_right _ hc')
    obtain ⟨h', b', r, e1, e2, e3, e4, e5, e6, e7⟩ := hAppendComp_filled zero h len sh b d hb
      (hdo d (by simp)) (hdl d (by simp)) (hddb d (by simp))
    have hfo := from_old len e6
    -- the other buffers and arguments are as they were
    have hbufs : bufs.map (Buf.map h.get) = bufs.map (Buf.map h'.get) :=
      bufs_map_congr (len := len)
        (fun c hc => (e4 c (hbs.lt_spare c hc) fun hc' => (hx1 c hc').1 hc).symm)
        (fun c hc => (e4 c (hbs.lt_vis c hc) fun hc' => (hx1 c hc').2 hc).symm)
    have hds : ds.map (Comp.map h.get) = ds.map (Comp.map h'.get) :=
      List.map_congr_left fun d' hd' => comp_map_congr d' fun c hc =>
        (e4 c (hdl d' (by simp [hd']) c hc) (hddb d' (by simp [hd']) c hc)).symm
    have hframe : ∀ a < h.next, a ∉ spareOf len (b :: bufs) → h'.get a = h.get a := fun a ha hna =>
      e4 a ha fun hc => hna (by
        simp only [spareOf, List.flatMap_cons]; exact List.mem_append_left _ hc)
    cases r with
    | error e =>
      refine ⟨h', b' :: bufs, .error e, ?_, ?_, e3, hframe, ?_, by simp, ?_, ?_, by simp⟩
      · simp [hAppendLoop, e1]
      · simp [appendLoop, e2, hbufs]
      · refine .cons e5 (hbs.mono e3) ?_ ?_
        · intro c hc
          rcases hfo.1 c hc with hc | hc
          · exact hx1 c hc
          · exact ⟨fun hc' => by have := hbs.lt_spare c hc'; omega, fun hc' => by
              have := hbs.lt_vis c hc'; omega⟩
        · intro c hc hc'
          rcases hfo.2 c hc' with hc' | hc'
          · exact hx2 c hc hc'
          · have := hbs.lt_spare c hc; omega
      · intro c hc
        simp only [spareOf, List.flatMap_cons, List.mem_append] at hc ⊢
        rcases hc with hc | hc
        · rcases hfo.1 c hc with hc | hc
          · exact Or.inl (Or.inl hc)
          · exact Or.inr hc
        · exact Or.inl (Or.inr hc)
      · intro c hc
        simp only [visOf, List.flatMap_cons, List.mem_append] at hc ⊢
        rcases hc with hc | hc
        · rcases hfo.2 c hc with hc | hc
          · exact Or.inl (Or.inl hc)
          · exact Or.inr hc
        · exact Or.inl (Or.inr hc)
    | ok n =>
      obtain ⟨h'', bufs', r, i1, i2, i3, i4, i5, i6, i7, i8, i9⟩ := ih h' shs ds (hbs.mono e3)
        (fun d' hd' => hdo d' (by simp [hd']))
        (fun d' hd' c hc => (hdl d' (by simp [hd']) c hc).trans_le e3)
        (fun d' hd' => hdds d' (by simp [hd'])) (by simpa using h1) (by simpa using h2)
      obtain ⟨e7a, e7b, _⟩ := e7 n rfl
      -- the buffer just written is as it was
      have hlt' := e5.lt
      have hb'spare : ∀ c ∈ cells b'.rows, c ∉ spareOf len bufs := by
        intro c hc hc'
        rw [cells_take_drop b'.rows len] at hc
        have := hbs.lt_spare c hc'
        rcases List.mem_append.1 hc with hc | hc
        · rcases hfo.2 c hc with hc | hc
          · exact hx2 c hc' hc
          · omega
        · rcases hfo.1 c hc with hc | hc
          · exact (hx1 c hc).1 hc'
          · omega
      have hb' : b'.map h''.get = b'.map h'.get := by
        simp only [Buf.map]
        rw [rows_map_congr fun c hc => i4 c (hlt' c hc) (hb'spare c hc)]
      have hok' : BufsOk h''.next len (b' :: bufs') := by
        refine .cons ⟨e5.shape, fun c hc => (hlt' c hc).trans_le i3, e5.le, e5.nodup, e5.disj⟩ i5 ?_ ?_
        · intro c hc
          have hc1 : c < h'.next := hlt' c (by
            rw [cells_take_drop b'.rows len]; exact List.mem_append_right _ hc)
          have hold : c ∉ spareOf len bufs ∧ c ∉ visOf len bufs := by
            rcases hfo.1 c hc with hc | hc
            · exact hx1 c hc
            · exact ⟨fun hc' => by have := hbs.lt_spare c hc'; omega, fun hc' => by
                have := hbs.lt_vis c hc'; omega⟩
          constructor
          · intro hc'
            rcases i7 c hc' with hc' | hc'
            · exact hold.1 hc'
            · omega
          · intro hc'
            rcases i8 c hc' with hc' | hc'
            · exact hold.2 hc'
            · omega
        · intro c hc hc'
          have hc1 : c < h'.next := hlt' c (by
            rw [cells_take_drop b'.rows len]; exact List.mem_append_left _ hc')
          rcases i7 c hc with hc | hc
          · rcases hfo.2 c hc' with hc' | hc'
            · exact hx2 c hc hc'
            · have := hbs.lt_spare c hc; omega
          · omega
      have hfr : ∀ a < h.next, a ∉ spareOf len (b :: bufs) → h''.get a = h.get a := fun a ha hna => by
        rw [i4 a (ha.trans_le e3) fun hc => hna (by
          simp only [spareOf, List.flatMap_cons]; exact List.mem_append_right _ hc), hframe a ha hna]
      have hsp : ∀ c ∈ spareOf len (b' :: bufs'), c ∈ spareOf len (b :: bufs) ∨ h.next ≤ c := by
        intro c hc
        simp only [spareOf, List.flatMap_cons, List.mem_append] at hc ⊢
        rcases hc with hc | hc
        · rcases hfo.1 c hc with hc | hc
          · exact Or.inl (Or.inl hc)
          · exact Or.inr hc
        · rcases i7 c hc with hc | hc
          · exact Or.inl (Or.inr hc)
          · exact Or.inr (by omega)
      have hvi : ∀ c ∈ visOf len (b' :: bufs'), c ∈ visOf len (b :: bufs) ∨ h.next ≤ c := by
        intro c hc
        simp only [visOf, List.flatMap_cons, List.mem_append] at hc ⊢
        rcases hc with hc | hc
        · rcases hfo.2 c hc with hc | hc
          · exact Or.inl (Or.inl hc)
          · exact Or.inr hc
        · rcases i8 c hc with hc | hc
          · exact Or.inl (Or.inr hc)
          · exact Or.inr (by omega)
      have hval : appendLoop zero len (sh :: shs) (((b :: bufs).map (Buf.map h.get)).map some)
          ((d :: ds).map (Comp.map h.get)) = (match ((((bufs'.map (Buf.map h''.get)).map some), r) :
            List (Option (Buf K)) × Py (Option ℕ)) with
      | (as', .error e) => (some (b'.map h''.get) :: as', .error e)
      | (as', .ok none) => (some (b'.map h''.get) :: as', .ok (some n))
      | (as', .ok (some m)) => (some (b'.map h''.get) :: as', .ok (some m))) := by
        simp only [List.map_cons, appendLoop, e2, hbufs, hds, i2, hb']
        rfl
      cases r with
      | error e =>
        exact ⟨h'', b' :: bufs', .error e, by simp [hAppendLoop, e1, i1], by rw [hval]; rfl,
          e3.trans i3, hfr, hok', by simp [i6], hsp, hvi, by simp⟩
      | ok o =>
        cases o with
        | none =>
          refine ⟨h'', b' :: bufs', .ok (some n), by simp [hAppendLoop, e1, i1], by rw [hval]; rfl,
            e3.trans i3, hfr, hok', by simp [i6], hsp, hvi, ?_⟩
          intro k hk m hm
          obtain rfl : n = k := by simpa using hk
          have hnm : n = m := by rw [e7b]; exact hm (sh, d) (by simp)
          refine ⟨hnm, ?_⟩
          -- no other component
          have : bufs = [] := by
            by_contra hne
            match bufs, shs, ds, hne, h1, h2, i1 with
            | b0 :: bufs, sh0 :: shs, d0 :: ds, _, _, _, i1 =>
              simp only [List.map_cons, hAppendLoop] at i1
              split at i1
              · simp at i1
              · split at i1 <;> simp at i1
          subst this
          obtain rfl := List.length_eq_zero_iff.1 i6
          simpa using e7a
        | some k =>
          refine ⟨h'', b' :: bufs', .ok (some k), by simp [hAppendLoop, e1, i1], by rw [hval]; rfl,
            e3.trans i3, hfr, hok', by simp [i6], hsp, hvi, ?_⟩
          intro k' hk m hm
          obtain rfl : k = k' := by simpa using hk
          have hnm : n = m := by rw [e7b]; exact hm (sh, d) (by simp)
          obtain ⟨j1, j2⟩ := i9 k rfl m fun p hp => hm p (by simp [hp])
          refine ⟨j1, ?_⟩
          intro b'' hb''
          rcases List.mem_cons.1 hb'' with rfl | hb''
          · rw [j1, ← hnm]; exact e7a
          · exact j2 b'' hb''

end RS
