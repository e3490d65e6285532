import Verif.Props.BlockReader
import Verif.Props.BinaryEnc
import Verif.Spec.Damage

set_option autoImplicit false

/-! # Damaged files: C96 -/

namespace Meerkat
open Spec BinaryEnc

namespace Damage

theorem distance_append {a a' : Bytes} (h : a.length = a'.length) (b b' : Bytes) :
    distance (a ++ b) (a' ++ b') = distance a a' + distance b b' := by
  induction a generalizing a' with
  | nil => cases a' with
    | nil => simp [distance]
    | cons => simp at h
  | cons x a ih => cases a' with
    | nil => simp at h
    | cons y a' =>
      simp only [List.length_cons, Nat.add_right_cancel_iff] at h
      simp only [List.cons_append, distance, ih h, Nat.add_assoc]

@[simp] theorem distance_self (a : Bytes) : distance a a = 0 := by
  induction a with
  | nil => rfl
  | cons x a ih => simp [distance, ih]

theorem shape_append (a b : List (Option Bytes)) : shape (a ++ b) = shape a ++ shape b := by simp [shape]

theorem shape_length (a : List (Option Bytes)) : (shape a).length = a.length := by simp [shape]

theorem lens_shape (a : List (Option Bytes)) : (valuesOf a).map List.length = valuesOf (shape a) := by
  induction a with
  | nil => rfl
  | cons x a ih => cases x <;> simp_all [shape, valuesOf]

theorem validity_shape (a : List (Option Bytes)) : validityOf a = validityOf (shape a) := by
  simp [shape, validityOf]

theorem takeVals_shape (a : List (Option Bytes)) : ∀ j, shape (takeVals j a) = takeVals j (shape a) := by
  induction a with
  | nil => intro j; cases j <;> rfl
  | cons x a ih =>
    intro j
    cases j with
    | zero => cases x <;> rfl
    | succ j => cases x <;> simp_all [shape, takeVals]

theorem dropTrailing_shape (a : List (Option Bytes)) : shape (dropTrailingNulls a) = dropTrailingNulls (shape a) := by
  have h : ∀ l : List (Option Bytes), (l.dropWhile Option.isNone).map (Option.map List.length) =
      (l.map (Option.map List.length)).dropWhile Option.isNone := by
    intro l
    induction l with
    | nil => rfl
    | cons x l ih => cases x <;> simp_all
  simp only [dropTrailingNulls, shape, List.map_reverse, h]

theorem drop_shape (n : Nat) (a : List (Option Bytes)) : shape (a.drop n) = (shape a).drop n := by
  simp [shape, List.map_drop]

section
variable {a a' : List (Option Bytes)} (h : shape a = shape a')
include h

theorem len_eq : a.length = a'.length := by rw [← shape_length, h, shape_length]
theorem lens_eq : (valuesOf a).map List.length = (valuesOf a').map List.length := by rw [lens_shape, h, lens_shape]
theorem count_eq : (valuesOf a).length = (valuesOf a').length := by
  simpa using congrArg List.length (lens_eq h)
theorem validity_eq : validityOf a = validityOf a' := by rw [validity_shape, h, ← validity_shape]
theorem bytes_eq : byteCount a = byteCount a' := by
  rw [byteCount, byteCount, List.length_flatten, List.length_flatten, lens_eq h]

theorem block_eq (nullable : Bool) : (blockBytes nullable a).length = (blockBytes nullable a').length ∧
    distance (blockBytes nullable a) (blockBytes nullable a') = distance (valuesOf a).flatten (valuesOf a').flatten := by
  have hb := bytes_eq h
  have hd : (valuesOf a).flatten.length = (valuesOf a').flatten.length := hb
  rw [blockBytes, blockBytes, lens_eq h, validity_eq h, hb]
  refine ⟨by simp [hd], ?_⟩
  rw [distance_append (by simp [hd]), distance_append (by simp [hd]), distance_append rfl]
  simp

theorem accepts_eq {nullable : Bool} (hA : Accepts nullable a) : Accepts nullable a' := by
  rcases hA with hA | hA
  · exact .inl hA
  · refine .inr fun hn => hA ?_
    have : (none : Option Nat) ∈ shape a' := List.mem_map.2 ⟨none, hn, rfl⟩
    rw [← h] at this
    obtain ⟨x, hx, hx2⟩ := List.mem_map.1 this
    cases x with
    | none => exact hx
    | some => cases hx2

end

theorem fill_lens {vs vs' : List Bytes} (h : vs.map List.length = vs'.map List.length) :
    ∀ m, fill m vs = fill m vs' := by
  induction vs generalizing vs' with
  | nil => cases vs' with
    | nil => intro _; rfl
    | cons => simp at h
  | cons v vs ih => cases vs' with
    | nil => simp at h
    | cons v' vs' =>
      simp only [List.map_cons, List.cons.injEq] at h
      intro m
      cases m with
      | zero => rfl
      | succ m => rw [fill, fill, h.1, ih h.2]

theorem step_shape {m : Nat} {held held' b b' : List (Option Bytes)} (hh : shape held = shape held')
    (hb : shape b = shape b') : (fillStep m held b).1.map shape = (fillStep m held' b').1.map shape ∧
      shape (fillStep m held b).2 = shape (fillStep m held' b').2 := by
  have hf : fill (m - byteCount held) (valuesOf b) = fill (m - byteCount held') (valuesOf b') := by
    rw [bytes_eq hh, fill_lens (lens_eq hb)]
  rw [fillStep, fillStep, hf]
  rcases fill (m - byteCount held') (valuesOf b') with _ | j
  · exact ⟨rfl, by simp only [shape_append, dropTrailing_shape, hh, hb]⟩
  · refine ⟨by simp only [List.map_cons, List.map_nil, shape_append, takeVals_shape, hh, hb], ?_⟩
    simp only [dropTrailing_shape, drop_shape, hb]
    rw [← shape_length (takeVals j b), ← shape_length (takeVals j b'), takeVals_shape, takeVals_shape, hb]

theorem groups_shape {m : Nat} {bufs : List (List (Option Bytes))} : ∀ {bufs' : List (List (Option Bytes))}
    {held held' : List (Option Bytes)}, shape held = shape held' → bufs.map shape = bufs'.map shape →
    (fillGroups m held bufs).map shape = (fillGroups m held' bufs').map shape := by
  induction bufs with
  | nil =>
    intro bufs' held held' hh hb
    cases bufs' with
    | cons => simp at hb
    | nil =>
      rw [fillGroups, fillGroups, count_eq hh]
      split
      · rfl
      · simp [hh]
  | cons b bufs ih =>
    intro bufs' held held' hh hb
    cases bufs' with
    | nil => simp at hb
    | cons b' bufs' =>
      simp only [List.map_cons, List.cons.injEq] at hb
      obtain ⟨h1, h2⟩ := step_shape (m := m) hh hb.1
      rw [fillGroups, fillGroups, List.map_append, List.map_append, h1, ih h2 hb.2]

theorem mem_shape {l l' : List (List (Option Bytes))} (h : l.map shape = l'.map shape) {g' : List (Option Bytes)}
    (hg : g' ∈ l') : ∃ g ∈ l, shape g = shape g' := by
  have : shape g' ∈ l.map shape := by rw [h]; exact List.mem_map.2 ⟨g', hg, rfl⟩
  exact List.mem_map.1 this

theorem stale_shape (stale : List Bool) {held held' : List (Option Bytes)} (hh : shape held = shape held')
    {l l' : List (List (Option Bytes))} (h : l.map shape = l'.map shape) :
    nextStale stale held l = nextStale stale held' l' := by
  have h1 : l.map validityOf = l'.map validityOf := by
    have := congrArg (List.map validityOf) h
    simpa only [List.map_map, Function.comp_def, ← validity_shape] using this
  have h2 : held = [] ↔ held' = [] := by
    rw [← List.length_eq_zero_iff, len_eq hh, List.length_eq_zero_iff]
  have h3 : ∀ (l : List (List (Option Bytes))) (st : List Bool),
      l.foldl (fun st g => (orBits st (validityOf g)).take (8 * 1024)) st =
        (l.map validityOf).foldl (fun st v => (orBits st v).take (8 * 1024)) st := by
    intro l st
    rw [List.foldl_map]
  rw [nextStale, nextStale, h3, h3, h1]
  by_cases he : held = []
  · rw [if_pos he, if_pos (h2.1 he)]
  · rw [if_neg he, if_neg (fun h => he (h2.2 h))]

theorem manageable_shape {m : Nat} {nullable : Bool} {bufs : List (List (Option Bytes))} :
    ∀ {bufs' : List (List (Option Bytes))} {held held' : List (Option Bytes)} {stale : List Bool},
    shape held = shape held' → bufs.map shape = bufs'.map shape → Manageable m nullable stale held bufs →
    Manageable m nullable stale held' bufs' := by
  have hseen : ∀ {stale : List Bool} {g g' : List (Option Bytes)}, shape g = shape g' →
      seenBits stale g = validityOf g → seenBits stale g' = validityOf g' := by
    intro stale g g' h h1
    rw [seenBits, ← validity_eq h, ← len_eq h]; exact h1
  induction bufs with
  | nil =>
    intro bufs' held held' stale hh hb hman
    cases bufs' with
    | cons => simp at hb
    | nil =>
      obtain ⟨h1, h2⟩ := hman
      exact ⟨by rw [← count_eq hh]; exact h1, fun hn => hseen hh (h2 hn)⟩
  | cons b bufs ih =>
    intro bufs' held held' stale hh hb hman
    cases bufs' with
    | nil => simp at hb
    | cons b' bufs' =>
      simp only [List.map_cons, List.cons.injEq] at hb
      obtain ⟨h1, h2⟩ := step_shape (m := m) hh hb.1
      obtain ⟨m1, m2, m3, m4⟩ := hman
      have hne : held' ≠ [] → held ≠ [] := by
        intro h h'
        subst h'
        exact h (List.length_eq_zero_iff.1 (len_eq hh).symm)
      refine ⟨fun h => ?_, fun g' hg' => ?_, fun hn hd g' hg' => ?_, ?_⟩
      · rw [← bytes_eq h2]
        refine m1 fun h' => h ?_
        rw [h'] at h1
        exact List.map_eq_nil_iff.1 h1.symm
      · obtain ⟨g, hg, hs⟩ := mem_shape h1 hg'
        obtain ⟨q1, q2⟩ := m2 g hg
        exact ⟨by rw [← count_eq hs]; exact q1, fun h => by rw [← bytes_eq hs]; exact q2 (hne h)⟩
      · obtain ⟨g, hg, hs⟩ := mem_shape h1 hg'
        exact hseen hs (m3 hn (hne hd) g hg)
      · rw [← stale_shape stale hh h1]
        exact ih h2 hb.2 m4

theorem blocks_shape (nullable : Bool) {gs : List (List (Option Bytes))} : ∀ {gs' : List (List (Option Bytes))} (n : Nat),
    gs.map shape = gs'.map shape →
    (blocksOf nullable n gs).map Prod.fst = (blocksOf nullable n gs').map Prod.fst ∧
    (blocksOf nullable n gs).map (fun b => b.2.length) = (blocksOf nullable n gs').map (fun b => b.2.length) ∧
    distance ((blocksOf nullable n gs).flatMap Prod.snd) ((blocksOf nullable n gs').flatMap Prod.snd) =
      distance (valuesOf gs.flatten).flatten (valuesOf gs'.flatten).flatten := by
  induction gs with
  | nil =>
    intro gs' n h
    cases gs' with
    | nil => exact ⟨rfl, rfl, rfl⟩
    | cons => simp at h
  | cons g gs ih =>
    intro gs' n h
    cases gs' with
    | nil => simp at h
    | cons g' gs' =>
      simp only [List.map_cons, List.cons.injEq] at h
      obtain ⟨b1, b2⟩ := block_eq h.1 nullable
      obtain ⟨i1, i2, i3⟩ := ih (n + g.length) h.2
      have hl := len_eq h.1
      refine ⟨?_, ?_, ?_⟩
      · rw [hl] at i1; simp only [blocksOf, List.map_cons, i1, hl]
      · rw [hl] at i2; simp only [blocksOf, List.map_cons, b1, i2, hl]
      · simp only [blocksOf, List.flatMap_cons, List.flatten_cons, valuesOf_append, List.flatten_append]
        rw [distance_append b1, distance_append (bytes_eq h.1), b2, ← hl, i3]

theorem values_dropTrailing (bufs : List (List (Option Bytes))) :
    valuesOf (bufs.flatMap dropTrailingNulls) = valuesOf bufs.flatten := by
  induction bufs with
  | nil => rfl
  | cons b bufs ih =>
    obtain ⟨q, hq, _, hv⟩ := dropTrailingNulls_spec b
    have h : valuesOf (dropTrailingNulls b) = valuesOf b := by
      conv => rhs; rw [hq]
      simp [hv]
    simp [ih, h]

end Damage

open Damage

/-- C96, what the files show of the values: two columns with nulls at the same rows and values of the same lengths are
written as blocks with the same row ids and lengths, and the blocks differ in exactly as many bytes as the values. -/
theorem C96_damage_exact (p : Profile) (nullable : Bool) (m : Nat) (hm : 0 < m) (hm32 : m ≤ U32_MAX)
    (bufs bufs' : List (List (Option Bytes))) (hs : bufs.map shape = bufs'.map shape) (bs : List BinaryBuffer)
    (hb : buildBinary nullable bufs = .ok bs) (hlen : bufs.flatten.length < 2 ^ 32)
    (hman : Manageable m nullable [] [] bufs) :
    ∃ bs' e e' blocks blocks', buildBinary nullable bufs' = .ok bs' ∧
      encodeColumn p recorder bs (Encoder.new m nullable, []) = (.ok (), (e, blocks)) ∧
      encodeColumn p recorder bs' (Encoder.new m nullable, []) = (.ok (), (e', blocks')) ∧
      blocks.map Prod.fst = blocks'.map Prod.fst ∧
      blocks.map (fun b => b.2.length) = blocks'.map (fun b => b.2.length) ∧
      distance (blocks.flatMap Prod.snd) (blocks'.flatMap Prod.snd) = distance (dataOf bufs) (dataOf bufs') := by
  obtain ⟨hA, hD, _⟩ := buildBinary_ok hb
  have hb' := buildBinary_of_accepts (nullable := nullable) (bufs := bufs')
    (fun b' hb' => by obtain ⟨b, hb, hs⟩ := mem_shape hs hb'; exact accepts_eq hs (hA b hb))
    (fun b' hb' => by obtain ⟨b, hb, hs⟩ := mem_shape hs hb'; rw [← bytes_eq hs]; exact hD b hb)
  have hlen' : bufs'.flatten.length = bufs.flatten.length := by
    have := congrArg (fun l => (l.map List.length).sum) hs
    simp only [List.map_map, Function.comp_def, shape_length] at this
    rw [List.length_flatten, List.length_flatten]
    exact this.symm
  have hman' := manageable_shape (held' := []) rfl hs hman
  obtain ⟨e, h1⟩ := binary_run p hm hb hlen hm32 hman
  obtain ⟨e', h2⟩ := binary_run p hm hb' (by omega) hm32 hman'
  obtain ⟨g1, g2, g3⟩ := blocks_shape nullable (gs := fillGroups m [] bufs) (gs' := fillGroups m [] bufs') 0
    (groups_shape rfl hs)
  refine ⟨_, e, e', _, _, hb', h1, h2, g1, g2, ?_⟩
  rw [g3, fillGroups_rows m bufs [] (.inl rfl), fillGroups_rows m bufs' [] (.inl rfl), List.nil_append, List.nil_append,
    values_dropTrailing, values_dropTrailing]
  rfl

/-- C96 is false of the code: whatever column is written, unless its values have no bytes, there is another one
that is written as blocks with the same row ids and lengths, which differ in a single byte. -/
theorem C96_damage_violated (p : Profile) (nullable : Bool) (m : Nat) (hm : 0 < m) (hm32 : m ≤ U32_MAX)
    (bufs : List (List (Option Bytes))) (hd : dataOf bufs ≠ []) (bs : List BinaryBuffer)
    (hb : buildBinary nullable bufs = .ok bs) (hlen : bufs.flatten.length < 2 ^ 32)
    (hman : Manageable m nullable [] [] bufs) :
    ∃ bufs' bs' e e' blocks blocks', bufs' ≠ bufs ∧ buildBinary nullable bufs' = .ok bs' ∧
      encodeColumn p recorder bs (Encoder.new m nullable, []) = (.ok (), (e, blocks)) ∧
      encodeColumn p recorder bs' (Encoder.new m nullable, []) = (.ok (), (e', blocks')) ∧
      blocks.map Prod.fst = blocks'.map Prod.fst ∧
      blocks.map (fun b => b.2.length) = blocks'.map (fun b => b.2.length) ∧
      distance (blocks.flatMap Prod.snd) (blocks'.flatMap Prod.snd) = 1 := by
  have hex : ∃ x, x ∈ dataOf bufs := List.exists_mem_of_ne_nil _ hd
  obtain ⟨x, hx⟩ := hex
  obtain ⟨v, hv, hxv⟩ := List.mem_flatten.1 hx
  have hv' : some v ∈ bufs.flatten := (List.mem_filterMap.1 hv).elim fun _ h => h.2 ▸ h.1
  obtain ⟨b, hbm, hvb⟩ := List.mem_flatten.1 hv'
  obtain ⟨v1, v2, rfl⟩ := List.append_of_mem hxv
  obtain ⟨r1, r2, rfl⟩ := List.append_of_mem hvb
  obtain ⟨pre, post, rfl⟩ := List.append_of_mem hbm
  have hne : x ≠ x + 1 := by
    intro h
    have := congrArg UInt8.toNat h
    simp at this
    omega
  have hs : (pre ++ (r1 ++ some (v1 ++ x :: v2) :: r2) :: post).map shape =
      (pre ++ (r1 ++ some (v1 ++ (x + 1) :: v2) :: r2) :: post).map shape := by simp [shape]
  have hdist : distance (dataOf (pre ++ (r1 ++ some (v1 ++ x :: v2) :: r2) :: post))
      (dataOf (pre ++ (r1 ++ some (v1 ++ (x + 1) :: v2) :: r2) :: post)) = 1 := by
    have e1 : ∀ y, dataOf (pre ++ (r1 ++ some (v1 ++ y :: v2) :: r2) :: post) =
        ((valuesOf pre.flatten).flatten ++ ((valuesOf r1).flatten ++ v1)) ++
          (y :: (v2 ++ ((valuesOf r2).flatten ++ (valuesOf post.flatten).flatten))) := by
      intro y; simp [dataOf, valuesOf]
    rw [e1, e1, distance_append rfl, distance_self, distance, if_neg hne, distance_self]
  obtain ⟨bs', e, e', blocks, blocks', g1, g2, g3, g4, g5, g6⟩ := C96_damage_exact p nullable m hm hm32 _ _ hs bs hb hlen hman
  refine ⟨_, bs', e, e', blocks, blocks', ?_, g1, g2, g3, g4, g5, by rw [g6, hdist]⟩
  intro h
  rw [h] at hdist
  simp at hdist

/-- A nullable column in two blocks of 4 bytes, and the one that differs from it in a byte. -/
example : ∃ bs' e e' blocks blocks', buildBinary true [[some [1, 2, 3, 4, 5], none], [none, some [6]]] = .ok bs' ∧
    encodeColumn .debug recorder [BinaryBuffer.ofRows true [some [1, 2, 3, 4, 5], none],
      BinaryBuffer.ofRows true [none, some [7]]] (Encoder.new 4 true, []) = (.ok (), (e, blocks)) ∧
    encodeColumn .debug recorder bs' (Encoder.new 4 true, []) = (.ok (), (e', blocks')) ∧
    blocks.map Prod.fst = blocks'.map Prod.fst ∧
    blocks.map (fun b => b.2.length) = blocks'.map (fun b => b.2.length) ∧
    distance (blocks.flatMap Prod.snd) (blocks'.flatMap Prod.snd) = 1 :=
  C96_damage_exact .debug true 4 (by decide) (by decide) [[some [1, 2, 3, 4, 5], none], [none, some [7]]]
    [[some [1, 2, 3, 4, 5], none], [none, some [6]]] (by decide) _
    (buildBinary_of_accepts (fun _ _ => .inl rfl) (by decide)) (by decide) (by decide +kernel)

/-- C96 as far as it holds: when bytes at the end of a file are missing, the blocks that had them are not read. -/
theorem C96_damage_partial (q : Profile) (file : Bytes) (hlen : file.length < 2 ^ 63) (k : Nat) (range : BlockRange)
    (hs : range.start < range.end) (he : range.end ≤ file.length) (hk : k < range.end) (r : Except ReadError Bytes)
    (h : ReadBlock q false (file.take k) range r) : ∃ e, r = .error e := by
  refine (C43_read_block q (file.take k) (by rw [List.length_take]; omega) range (by omega) r h).2 ?_
  rintro ⟨_, h2⟩
  rw [List.length_take] at h2
  omega

/-- The last byte of a file is missing. -/
example (q : Profile) (r) (h : ReadBlock q false ([1, 2, 3, 4].take 3) ⟨2, 4⟩ r) : ∃ e, r = .error e :=
  C96_damage_partial q [1, 2, 3, 4] (by decide) 3 ⟨2, 4⟩ (by decide) (by decide) (by decide) r h

end Meerkat
