import Verif.Proofs.AppendFrom

set_option autoImplicit false

/-! # List facts about rows and their non-null values -/

namespace Meerkat
open Spec
variable {α : Type}

theorem takeVals_prefix (n : Nat) (l : List (Option α)) : takeVals n l <+: l := by
  induction l generalizing n with
  | nil => cases n <;> simp [takeVals]
  | cons x l ih =>
    cases n with
    | zero => simp [takeVals]
    | succ n => cases x <;> simp [takeVals, ih]

theorem takeVals_append_drop (n : Nat) (l : List (Option α)) :
    takeVals n l ++ l.drop (takeVals n l).length = l := by
  obtain ⟨t, ht⟩ := takeVals_prefix n l
  have := congrArg (List.drop (takeVals n l).length) ht
  rw [List.drop_left] at this
  rw [← this, ht]

theorem takeVals_values (n : Nat) (l : List (Option α)) :
    valuesOf (takeVals n l) = (valuesOf l).take n := by
  induction l generalizing n with
  | nil => cases n <;> simp [takeVals]
  | cons x l ih =>
    cases n with
    | zero => simp [takeVals]
    | succ n => cases x <;> simp_all [takeVals, valuesOf]

theorem takeVals_ends (n : Nat) (l : List (Option α)) (h : n ≤ (valuesOf l).length) :
    EndsWithValue (takeVals n l) := by
  obtain ⟨p, q, rfl, hv, he⟩ := exists_prefix_values l n h
  suffices takeVals n (p ++ q) = p by rw [this]; exact he
  clear h
  induction p generalizing n with
  | nil => simp at hv; subst hv; simp [takeVals]
  | cons x p ih =>
    have he' : EndsWithValue p := EndsWithValue.of_append (p := [x]) he
    cases x with
    | some v =>
      have : (valuesOf p).length + 1 = n := by simpa [valuesOf] using hv
      subst this
      simp [takeVals, ih _ rfl he']
    | none =>
      have hv' : (valuesOf p).length = n := by simpa [valuesOf] using hv
      cases n with
      | zero =>
        rcases he with he | ⟨v, he⟩
        · simp at he
        · cases p with
          | nil => simp at he
          | cons y p =>
            rcases he' with h | ⟨w, h⟩
            · simp at h
            · have : w ∈ valuesOf (y :: p) := by
                have := List.mem_of_getLast? h
                simp only [valuesOf, List.mem_filterMap, id]
                exact ⟨_, this, rfl⟩
              rw [List.eq_nil_of_length_eq_zero hv'] at this; simp at this
      | succ n => simp [takeVals, ih _ hv' he']

theorem dropTrailingNulls_spec (l : List (Option α)) : ∃ q, l = dropTrailingNulls l ++ q ∧
    EndsWithValue (dropTrailingNulls l) ∧ valuesOf q = [] := by
  obtain ⟨p, q, h, hv, he⟩ := exists_prefix_values l _ (Nat.le_refl _)
  have hq : valuesOf q = [] := by
    have := congrArg (fun l => (valuesOf l).length) h
    simp at this
    exact List.eq_nil_of_length_eq_zero (by omega)
  have := dropTrailingNulls_eq he hq
  rw [h, this]
  exact ⟨q, rfl, he, hq⟩

theorem dropTrailingNulls_values (l : List (Option α)) :
    valuesOf (dropTrailingNulls l) = valuesOf l := by
  obtain ⟨q, h, _, hq⟩ := dropTrailingNulls_spec l
  have := congrArg valuesOf h
  rw [valuesOf_append, hq, List.append_nil] at this
  exact this.symm

theorem dropTrailingNulls_ends (l : List (Option α)) : EndsWithValue (dropTrailingNulls l) :=
  (dropTrailingNulls_spec l).choose_spec.2.1

theorem dropTrailingNulls_of_ends {l : List (Option α)} (h : EndsWithValue l) :
    dropTrailingNulls l = l := by
  have := dropTrailingNulls_eq (q := []) h rfl
  simpa using this

theorem dropTrailingNulls_eq_self_iff {l : List (Option α)} :
    dropTrailingNulls l = l ↔ EndsWithValue l :=
  ⟨fun h => h ▸ dropTrailingNulls_ends l, dropTrailingNulls_of_ends⟩

theorem takeVals_append_ge {n : Nat} {a b : List (Option α)} (ha : EndsWithValue a)
    (h : (valuesOf a).length ≤ n) : takeVals n (a ++ b) = a ++ takeVals (n - (valuesOf a).length) b := by
  induction a generalizing n with
  | nil => simp
  | cons x a ih =>
    have ha' : EndsWithValue a := EndsWithValue.of_append (p := [x]) ha
    cases x with
    | some v =>
      have h' : (valuesOf a).length + 1 ≤ n := by simpa [valuesOf] using h
      obtain ⟨m, rfl⟩ : ∃ m, n = m + 1 := ⟨n - 1, by omega⟩
      simp only [List.cons_append, takeVals, ih ha' (by omega : (valuesOf a).length ≤ m)]
      congr 3
      simp [valuesOf]
    | none =>
      have h' : (valuesOf a).length ≤ n := by simpa [valuesOf] using h
      cases n with
      | zero =>
        exfalso
        rcases ha with ha | ⟨v, ha⟩
        · simp at ha
        · have : v ∈ valuesOf (none :: a) := by
            simp only [valuesOf, List.mem_filterMap, id]
            exact ⟨_, List.mem_of_getLast? ha, rfl⟩
          have hz : valuesOf a = [] := List.eq_nil_of_length_eq_zero (by omega)
          have : v ∈ valuesOf a := by simpa [valuesOf] using this
          rw [hz] at this; simp at this
      | succ n =>
        simp only [List.cons_append, takeVals, ih ha' h']
        congr 3

theorem takeVals_append_le {n : Nat} {a b : List (Option α)}
    (h : n ≤ (valuesOf a).length) : takeVals n (a ++ b) = takeVals n a := by
  induction a generalizing n with
  | nil => simp at h; subst h; simp [takeVals]
  | cons x a ih =>
    cases n with
    | zero => simp [takeVals]
    | succ n =>
      cases x with
      | some v => simp only [List.cons_append, takeVals]; rw [ih (by simpa [valuesOf] using h)]
      | none => simp only [List.cons_append, takeVals]; rw [ih (by simpa [valuesOf] using h)]

theorem takeVals_all {n : Nat} {a : List (Option α)} (ha : EndsWithValue a)
    (h : (valuesOf a).length ≤ n) : takeVals n a = a := by
  have := takeVals_append_ge (b := []) ha h
  rw [List.append_nil] at this
  rw [this]
  cases n - (valuesOf a).length <;> simp [takeVals]

theorem valuesOf_flatten (ls : List (List (Option α))) :
    valuesOf ls.flatten = (ls.map valuesOf).flatten := by
  induction ls with
  | nil => rfl
  | cons l ls ih => simp [ih]

theorem ends_flatten {ls : List (List (Option α))} (h : ∀ l ∈ ls, EndsWithValue l) :
    EndsWithValue ls.flatten := by
  induction ls with
  | nil => exact .inl rfl
  | cons l ls ih =>
    rw [List.flatten_cons]
    exact (ih (fun l hl => h l (List.mem_cons_of_mem _ hl))).append_left (h l (List.mem_cons_self ..))

end Meerkat
