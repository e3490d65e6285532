import Verif.Spec.Lookup

set_option autoImplicit false

/-! # Finding rows by their numbers -/

namespace Meerkat.Lookup
open Spec
variable {β γ : Type}

/-- `rowAt` for blocks already read. -/
def look (start : Nat) (L : List (Nat × List γ)) (r : Nat) : Option γ :=
  match findBlock start L r with
  | none => none
  | some (g, i) => g[i]?

/-- The rows of the blocks. -/
def rowsIn (L : List (Nat × List γ)) : List γ := (L.map Prod.snd).flatten

/-- The row ids increase. -/
def Inc : Nat → List (Nat × List γ) → Prop
  | _, [] => True
  | start, (id, _) :: L => start ≤ id ∧ Inc (id + 1) L

/-- The row ids are those of the last rows, only the last one may be larger. -/
def Right : Nat → List (Nat × List γ) → Prop
  | _, [] => True
  | start, [(id, g)] => start + g.length ≤ id + 1
  | start, (id, g) :: x :: L => id + 1 = start + g.length ∧ Right (id + 1) (x :: L)

theorem look_cons (start id : Nat) (g : List γ) (L : List (Nat × List γ)) (r : Nat) :
    look start ((id, g) :: L) r = if r ≤ id then g[r - start]? else look (id + 1) L r := by
  unfold look
  rw [findBlock]
  by_cases h : r ≤ id
  · rw [if_pos h, if_pos h]
  · rw [if_neg h, if_neg h]

/-- As many rows are stored as are found. -/
theorem found_le (L : List (Nat × List γ)) : ∀ (start n : Nat), Inc start L →
    (∀ r, start ≤ r → r < start + n → (look start L r).isSome = true) → n ≤ (rowsIn L).length := by
  induction L with
  | nil =>
    intro start n _ h
    cases n with
    | zero => simp
    | succ n => have := h start (by omega) (by omega); simp [look, findBlock] at this
  | cons x L ih =>
    obtain ⟨id, g⟩ := x
    intro start n hinc h
    obtain ⟨h1, h2⟩ := hinc
    have hg : ∀ r, start ≤ r → r < start + n → r ≤ id → r - start < g.length := by
      intro r a b c
      have := h r a b
      rw [look_cons, if_pos c] at this
      simpa using this
    simp only [rowsIn, List.map_cons, List.flatten_cons, List.length_append] at ih ⊢
    by_cases hn : start + n ≤ id + 1
    · cases n with
      | zero => omega
      | succ n => have := hg (start + n) (by omega) (by omega) (by omega); omega
    · have h3 := hg id h1 (by omega) (by omega)
      have h4 := ih (id + 1) (start + n - (id + 1)) h2 (fun r a b => by
        have := h r (by omega) (by omega)
        rw [look_cons, if_neg (by omega)] at this
        exact this)
      omega

/-- If all are found, the row ids are right. -/
theorem right_of_found (L : List (Nat × List γ)) : ∀ (start : Nat), Inc start L → (∀ x ∈ L, x.2 ≠ []) →
    (∀ r, start ≤ r → r < start + (rowsIn L).length → (look start L r).isSome = true) → Right start L := by
  induction L with
  | nil => intros; trivial
  | cons x L ih =>
    obtain ⟨id, g⟩ := x
    intro start hinc hne h
    obtain ⟨h1, h2⟩ := hinc
    have hlen : (rowsIn ((id, g) :: L)).length = g.length + (rowsIn L).length := by
      simp [rowsIn]
    rw [hlen] at h
    have hg : ∀ r, start ≤ r → r < start + (g.length + (rowsIn L).length) → r ≤ id → r - start < g.length := by
      intro r a b c
      have := h r a b
      rw [look_cons, if_pos c] at this
      simpa using this
    have hrest : ∀ n, start + (g.length + (rowsIn L).length) = id + 1 + n →
        ∀ r, id + 1 ≤ r → r < id + 1 + n → (look (id + 1) L r).isSome = true := by
      intro n hn r a b
      have := h r (by omega) (by omega)
      rw [look_cons, if_neg (by omega)] at this
      exact this
    cases L with
    | nil =>
      show start + g.length ≤ id + 1
      by_cases hc : start + g.length ≤ id + 1
      · exact hc
      · exfalso
        have := found_le [] (id + 1) (start + g.length - (id + 1)) h2 (hrest _ (by simp [rowsIn]; omega))
        simp [rowsIn] at this
        omega
    | cons y L =>
      have hpos : 0 < (rowsIn (y :: L)).length := by
        have := List.length_pos_iff.mpr (hne y (by simp))
        simp only [rowsIn, List.map_cons, List.flatten_cons, List.length_append]
        omega
      have hlt : id + 1 < start + (g.length + (rowsIn (y :: L)).length) := by
        apply Classical.byContradiction
        intro hc
        have := hg (start + (g.length + (rowsIn (y :: L)).length) - 1) (by omega) (by omega) (by omega)
        omega
      have h3 := hg id h1 (by omega) (by omega)
      have h4 := found_le (y :: L) (id + 1) (start + (g.length + (rowsIn (y :: L)).length) - (id + 1)) h2
        (hrest _ (by omega))
      have h5 : id + 1 = start + g.length := by omega
      refine ⟨h5, ih (id + 1) h2 (fun x hx => hne x (List.mem_cons_of_mem _ hx)) ?_⟩
      exact hrest _ (by omega)

/-- If the row ids are right, every row is found. -/
theorem found_of_right (L : List (Nat × List γ)) : ∀ (start r : Nat), Right start L → start ≤ r →
    r < start + (rowsIn L).length → look start L r = (rowsIn L)[r - start]? := by
  induction L with
  | nil => intro start r _ h1 h2; simp [rowsIn] at h2; omega
  | cons x L ih =>
    obtain ⟨id, g⟩ := x
    intro start r hR h1 h2
    have hrows : rowsIn ((id, g) :: L) = g ++ rowsIn L := by simp [rowsIn]
    rw [hrows, List.length_append] at h2
    rw [hrows, look_cons]
    cases L with
    | nil =>
      have hR : start + g.length ≤ id + 1 := hR
      simp only [rowsIn, List.map_nil, List.flatten_nil, List.length_nil, Nat.add_zero] at h2
      rw [if_pos (by omega), List.getElem?_append_left (by omega)]
    | cons y L =>
      obtain ⟨hR1, hR2⟩ : id + 1 = start + g.length ∧ Right (id + 1) (y :: L) := hR
      by_cases hr : r ≤ id
      · rw [if_pos hr, List.getElem?_append_left (by omega)]
      · rw [if_neg hr, List.getElem?_append_right (by omega), ih (id + 1) r hR2 (by omega) (by omega)]
        congr 1
        omega

theorem right_of_lastRowIds (gs : List (List γ)) : ∀ (start : Nat), (∀ g ∈ gs, g ≠ []) →
    Right start ((lastRowIds start gs).zip gs) := by
  induction gs with
  | nil => intros; trivial
  | cons g gs ih =>
    intro start hne
    have hg := List.length_pos_iff.mpr (hne g (by simp))
    have h := ih (start + g.length) (fun x hx => hne x (List.mem_cons_of_mem _ hx))
    rw [lastRowIds, List.zip_cons_cons]
    cases gs with
    | nil => show start + g.length ≤ start + g.length - 1 + 1; omega
    | cons x gs =>
      rw [lastRowIds, List.zip_cons_cons] at h ⊢
      exact ⟨by omega, by rw [show start + g.length - 1 + 1 = start + g.length by omega]; exact h⟩

theorem lastRowIds_length (gs : List (List γ)) : ∀ n, (lastRowIds n gs).length = gs.length := by
  induction gs with
  | nil => intro n; rfl
  | cons a as ih => intro n; simp [lastRowIds, ih]

theorem rowsIn_zip {ids : List Nat} {gs : List (List γ)} (h : ids.length = gs.length) : rowsIn (ids.zip gs) = gs.flatten := by
  rw [rowsIn, List.map_snd_zip]
  omega

/-- With the row ids of the last rows, exactly the rows of the blocks are found. -/
theorem look_lastRowIds (gs : List (List γ)) : ∀ (start r : Nat), (∀ g ∈ gs, g ≠ []) → start ≤ r →
    look start ((lastRowIds start gs).zip gs) r = gs.flatten[r - start]? := by
  induction gs with
  | nil => intro start r _ _; simp [lastRowIds, look, findBlock]
  | cons g gs ih =>
    intro start r hne hr
    have hg := List.length_pos_iff.mpr (hne g (by simp))
    rw [lastRowIds, List.zip_cons_cons, look_cons, List.flatten_cons]
    by_cases h : r ≤ start + g.length - 1
    · rw [if_pos h, List.getElem?_append_left (by omega)]
    · rw [if_neg h, List.getElem?_append_right (by omega), show start + g.length - 1 + 1 = start + g.length by omega,
        ih _ _ (fun x hx => hne x (List.mem_cons_of_mem _ hx)) (by omega), Nat.sub_add_eq]

/-- What is not beyond the last row id is all there is to find. -/
theorem look_none (L : List (Nat × List γ)) : ∀ (start r : Nat), (∀ x ∈ L, x.1 < r) → look start L r = none := by
  induction L with
  | nil => intros; rfl
  | cons x L ih =>
    obtain ⟨id, g⟩ := x
    intro start r h
    have := h (id, g) (by simp)
    rw [look_cons, if_neg (by simp at this; omega)]
    exact ih _ _ fun y hy => h y (List.mem_cons_of_mem _ hy)

/-- If all rows are found with the row ids of other groups that are no fewer rows, the groups are of the same sizes. -/
theorem lengths_of_found {δ : Type} (G : List (List δ)) : ∀ (gs : List (List γ)) (start : Nat), G.length = gs.length →
    (∀ g ∈ G, g ≠ []) → (∀ r, start ≤ r → r < start + G.flatten.length →
      (look start ((lastRowIds start G).zip gs) r).isSome = true) →
    G.flatten.length ≤ gs.flatten.length ∧
    (gs.flatten.length ≤ G.flatten.length → G.map List.length = gs.map List.length) := by
  induction G with
  | nil =>
    intro gs start hl _ _
    rw [List.eq_nil_of_length_eq_zero hl.symm]
    exact ⟨Nat.le_refl _, fun _ => rfl⟩
  | cons x G ih =>
    intro gs start hl hne h
    cases gs with
    | nil => simp at hl
    | cons g gs =>
      have hx := List.length_pos_iff.mpr (hne x (by simp))
      simp only [List.flatten_cons, List.length_append, lastRowIds, List.zip_cons_cons] at h ⊢
      have h1 : x.length ≤ g.length := by
        have := h (start + x.length - 1) (by omega) (by omega)
        rw [look_cons, if_pos (by omega)] at this
        have h3 : start + x.length - 1 - start < g.length := by simpa using this
        omega
      obtain ⟨i1, i2⟩ := ih gs (start + x.length) (by simpa using hl) (fun y hy => hne y (List.mem_cons_of_mem _ hy))
        (fun r a b => by
          have := h r (by omega) (by omega)
          rw [look_cons, if_neg (by omega), show start + x.length - 1 + 1 = start + x.length by omega] at this
          exact this)
      refine ⟨by omega, fun hle => ?_⟩
      rw [List.map_cons, List.map_cons, i2 (by omega), show x.length = g.length by omega]

/-- Reading first and looking up afterwards. -/
theorem findBlock_read {read : β → Option (List γ)} (blocks : List (Nat × β)) : ∀ (gs : List (List γ)) (start r : Nat),
    (blocks.map Prod.snd).mapM read = some gs →
    (match findBlock start blocks r with
      | none => none
      | some (b, i) => match read b with
        | none => none
        | some rows => rows[i]?) = look start ((blocks.map Prod.fst).zip gs) r := by
  induction blocks with
  | nil => intro gs start r h; simp [findBlock, look]
  | cons x blocks ih =>
    obtain ⟨id, b⟩ := x
    intro gs start r h
    rw [List.map_cons, List.mapM_cons] at h
    cases hb : read b with
    | none => rw [hb] at h; cases h
    | some g =>
      cases hr : (blocks.map Prod.snd).mapM read with
      | none => rw [hb, hr] at h; cases h
      | some gs' =>
        rw [hb, hr] at h
        obtain rfl : g :: gs' = gs := Option.some.inj h
        rw [List.map_cons, List.zip_cons_cons, look_cons, findBlock]
        by_cases hle : r ≤ id
        · simp only [if_pos hle, hb]
        · simp only [if_neg hle]
          exact ih gs' (id + 1) r hr

theorem rowAt_read {read : β → Option (List γ)} {blocks : List (Nat × β)} {gs : List (List γ)}
    (h : (blocks.map Prod.snd).mapM read = some gs) (r : Nat) :
    rowAt read blocks r = look 0 ((blocks.map Prod.fst).zip gs) r :=
  findBlock_read blocks gs 0 r h

end Meerkat.Lookup
