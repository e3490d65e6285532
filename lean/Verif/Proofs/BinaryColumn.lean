import Verif.Proofs.BinaryHolds

set_option autoImplicit false

/-! # The binary encoder on manageable columns -/

namespace Meerkat.BinaryEnc
open Spec BinaryBuffer

/-- The blocks given to the sink for successive groups of rows, `n` rows being counted before. -/
def blocksOf (nullable : Bool) : Nat → List (List (Option Bytes)) → List (Nat × Bytes)
  | _, [] => []
  | n, g :: gs => (n + g.length - 1, blockBytes nullable g) :: blocksOf nullable (n + g.length) gs

theorem blocksOf_append (nullable : Bool) (n : Nat) (as bs : List (List (Option Bytes))) :
    blocksOf nullable n (as ++ bs) = blocksOf nullable n as ++ blocksOf nullable (n + as.flatten.length) bs := by
  induction as generalizing n with
  | nil => simp [blocksOf]
  | cons a as ih => simp [blocksOf, ih, Nat.add_assoc]

theorem blocksOf_ids (nullable : Bool) (n : Nat) (gs : List (List (Option Bytes))) :
    (blocksOf nullable n gs).map (·.1) = lastRowIds n gs := by
  induction gs generalizing n with
  | nil => rfl
  | cons g gs ih => simp [blocksOf, lastRowIds, ih]

theorem blocksOf_data (nullable : Bool) (n : Nat) (gs : List (List (Option Bytes))) :
    (blocksOf nullable n gs).map (·.2) = gs.map (blockBytes nullable) := by
  induction gs generalizing n with
  | nil => rfl
  | cons g gs ih => simp [blocksOf, ih]

/-- The blocks given to the sink for successive groups of rows, each with its validity bits; `n` rows are
counted before. -/
def blocksWith (nullable : Bool) : Nat → List (List (Option Bytes) × List Bool) → List (Nat × Bytes)
  | _, [] => []
  | n, g :: gs => (n + g.2.length - 1, blockWith nullable g.1 g.2) :: blocksWith nullable (n + g.2.length) gs

/-- The number of rows counted for groups with validity bits. -/
def countBits (gs : List (List (Option Bytes) × List Bool)) : Nat := (gs.map fun g => g.2.length).sum

theorem blocksWith_append (nullable : Bool) (n : Nat) (as bs : List (List (Option Bytes) × List Bool)) :
    blocksWith nullable n (as ++ bs) = blocksWith nullable n as ++ blocksWith nullable (n + countBits as) bs := by
  induction as generalizing n with
  | nil => simp [blocksWith, countBits]
  | cons a as ih => simp [blocksWith, countBits, ih, Nat.add_assoc]

theorem blocksWith_data (nullable : Bool) (n : Nat) (gs : List (List (Option Bytes) × List Bool)) :
    (blocksWith nullable n gs).map (·.2) = gs.map (fun g => blockWith nullable g.1 g.2) := by
  induction gs generalizing n with
  | nil => rfl
  | cons g gs ih => simp [blocksWith, ih]

/-- Groups with the validity bits written for them when the bits `st` were set before. -/
def withBits (nullable : Bool) (st : List Bool) (gs : List (List (Option Bytes))) :
    List (List (Option Bytes) × List Bool) :=
  gs.map fun g => (g, writtenBits nullable st g)

/-- The groups of a history with the validity bits written for them. -/
def fillPairs (m : Nat) (nullable : Bool) : List Bool → List (Option Bytes) → List (List (Option Bytes)) →
    List (List (Option Bytes) × List Bool)
  | st, held, [] => if (valuesOf held).length = 0 then [] else [(held, writtenBits nullable st held)]
  | st, held, b :: bs => withBits nullable (if held = [] then [] else st) (fillStep m held b).1 ++
      fillPairs m nullable (nextStale st held (fillStep m held b).1) (fillStep m held b).2 bs

theorem fillPairs_groups (m : Nat) (nullable : Bool) (bufs : List (List (Option Bytes))) :
    ∀ (st : List Bool) (held : List (Option Bytes)),
    (fillPairs m nullable st held bufs).map (·.1) = fillGroups m held bufs := by
  induction bufs with
  | nil =>
    intro st held
    simp only [fillPairs, fillGroups]
    split <;> rfl
  | cons b bufs ih =>
    intro st held
    rw [fillPairs, fillGroups, List.map_append, ih, withBits, List.map_map]
    congr 1
    exact List.map_id _

theorem countBits_withBits_le (nullable : Bool) (st : List Bool) (gs : List (List (Option Bytes))) :
    countBits (withBits nullable st gs) ≤ gs.flatten.length := by
  induction gs with
  | nil => simp [countBits, withBits]
  | cons g gs ih =>
    have := writtenBits_length_le nullable st g
    simp only [countBits, withBits, List.map_cons, List.sum_cons, List.flatten_cons, List.length_append] at ih ⊢
    omega

/-- Groups whose bits are those of their rows. -/
theorem blocksWith_eq (nullable : Bool) (n : Nat) (gs : List (List (Option Bytes) × List Bool))
    (h : ∀ g ∈ gs, g.2 = validityOf g.1) : blocksWith nullable n gs = blocksOf nullable n (gs.map (·.1)) := by
  induction gs generalizing n with
  | nil => rfl
  | cons g gs ih =>
    have hg := h g (by simp)
    simp only [blocksWith, List.map_cons, blocksOf, ih _ (fun g' hg' => h g' (by simp [hg']))]
    rw [hg, validityOf_length, blockWith_validityOf]

theorem ends_nil_iff {α : Type} {rows : List (Option α)} (h : EndsWithValue rows) :
    (valuesOf rows).length = 0 ↔ rows = [] := by
  constructor
  · intro h0
    rcases h with h | ⟨v, h⟩
    · exact h
    · have : v ∈ valuesOf rows := by
        simp only [valuesOf, List.mem_filterMap, id]
        exact ⟨_, List.mem_of_getLast? h, rfl⟩
      rw [List.eq_nil_of_length_eq_zero h0] at this; simp at this
  · rintro rfl; rfl

theorem byteCount_takeVals (j : Nat) (rows : List (Option Bytes)) :
    byteCount (takeVals j rows) = ((valuesOf rows).take j).flatten.length := by
  rw [byteCount, takeVals_values]

theorem byteCount_dropTrailingNulls (rows : List (Option Bytes)) :
    byteCount (dropTrailingNulls rows) = byteCount rows := by
  rw [byteCount, dropTrailingNulls_values, byteCount]

theorem mem_takeVals_dropTrailingNulls {α : Type} {j : Nat} {rows : List (Option α)} {x : Option α}
    (hj : j ≤ (valuesOf rows).length) (h : x ∈ takeVals j rows) : x ∈ dropTrailingNulls rows := by
  obtain ⟨q, hq, _, _⟩ := dropTrailingNulls_spec rows
  have h1 : takeVals j rows = takeVals j (dropTrailingNulls rows) := by
    conv => lhs; rw [hq]
    exact takeVals_append_le (by rw [dropTrailingNulls_values]; exact hj)
  rw [h1] at h
  exact (takeVals_prefix _ _).subset h

theorem dropTrailingNulls_split {α : Type} {j : Nat} {rows : List (Option α)}
    (hj : j ≤ (valuesOf rows).length) :
    takeVals j rows ++ dropTrailingNulls (rows.drop (takeVals j rows).length) = dropTrailingNulls rows := by
  obtain ⟨q, hq, he, hv⟩ := dropTrailingNulls_spec (rows.drop (takeVals j rows).length)
  have h1 := takeVals_append_drop j rows
  rw [hq, ← List.append_assoc] at h1
  have := dropTrailingNulls_eq (he.append_left (takeVals_ends j rows hj)) hv
  rw [h1] at this
  exact this.symm

theorem accepts_sub {nullable : Bool} {a b : List (Option Bytes)} (h : Accepts nullable b)
    (hs : ∀ x ∈ a, x ∈ b) : Accepts nullable a := by
  rcases h with h | h
  · exact .inl h
  · exact .inr fun hn => h (hs _ hn)

/-! ## One step on rows -/

/-- What `fillStep` keeps: every row up to trailing nulls, in order. -/
theorem fillStep_rows (m : Nat) (held b : List (Option Bytes)) :
    (fillStep m held b).1.flatten ++ (fillStep m held b).2 = held ++ dropTrailingNulls b := by
  simp only [fillStep]
  cases hf : fill (m - byteCount held) (valuesOf b) with
  | none => simp
  | some j =>
    have := dropTrailingNulls_split (fill_some hf).1
    simp [← this]

theorem fillStep_ends (m : Nat) {held b : List (Option Bytes)} (hh : EndsWithValue held) :
    (∀ g ∈ (fillStep m held b).1, EndsWithValue g) ∧ EndsWithValue (fillStep m held b).2 := by
  simp only [fillStep]
  cases hf : fill (m - byteCount held) (valuesOf b) with
  | none => exact ⟨by simp, (dropTrailingNulls_ends b).append_left hh⟩
  | some j =>
    refine ⟨?_, dropTrailingNulls_ends _⟩
    simp only [List.mem_singleton, forall_eq]
    exact (takeVals_ends j b (fill_some hf).1).append_left hh

theorem fillStep_values {m : Nat} {held b : List (Option Bytes)} (hlt : byteCount held < m) :
    ∀ g ∈ (fillStep m held b).1, 1 ≤ (valuesOf g).length ∧ m ≤ byteCount g := by
  simp only [fillStep]
  cases hf : fill (m - byteCount held) (valuesOf b) with
  | none => simp
  | some j =>
    simp only [List.mem_singleton, forall_eq, valuesOf_append, List.length_append, takeVals_values,
      List.length_take, byteCount_append, byteCount_takeVals]
    obtain ⟨h1, h2, _⟩ := fill_some hf
    have h3 := fill_pos hf (by omega)
    omega

theorem fillStep_small {m : Nat} {held b : List (Option Bytes)} (hlt : byteCount held < m)
    (hgood : (fillStep m held b).1 ≠ [] → byteCount (fillStep m held b).2 < m) :
    byteCount (fillStep m held b).2 < m := by
  simp only [fillStep] at hgood ⊢
  cases hf : fill (m - byteCount held) (valuesOf b) with
  | none =>
    simp only [byteCount_append, byteCount_dropTrailingNulls]
    have := fill_none hf
    simp only [byteCount] at this ⊢
    simp only [byteCount] at hlt
    omega
  | some j =>
    rw [hf] at hgood
    exact hgood (by simp)

theorem dropTrailingNulls_length_le {α : Type} (b : List (Option α)) :
    (dropTrailingNulls b).length ≤ b.length := by
  obtain ⟨q, hq, _⟩ := dropTrailingNulls_spec b
  have := congrArg List.length hq
  rw [List.length_append] at this
  omega

theorem mem_of_mem_dropTrailingNulls {α : Type} {b : List (Option α)} {x : Option α}
    (h : x ∈ dropTrailingNulls b) : x ∈ b := by
  obtain ⟨q, hq, _⟩ := dropTrailingNulls_spec b
  rw [hq]; exact List.mem_append_left _ h

theorem fillStep_accepts {nullable : Bool} (m : Nat) {held b : List (Option Bytes)}
    (hh : Accepts nullable held) (hb : Accepts nullable b) :
    (∀ g ∈ (fillStep m held b).1, Accepts nullable g) ∧ Accepts nullable (fillStep m held b).2 := by
  have hall : Accepts nullable ((fillStep m held b).1.flatten ++ (fillStep m held b).2) := by
    rw [fillStep_rows]
    rcases hh with h | h
    · exact .inl h
    · rcases hb with h' | h'
      · exact .inl h'
      · refine .inr fun hn => ?_
        rcases List.mem_append.mp hn with hn | hn
        · exact h hn
        · exact h' (mem_of_mem_dropTrailingNulls hn)
  exact ⟨fun g hg => accepts_sub hall fun x hx => List.mem_append_left _ (List.mem_flatten.mpr ⟨g, hg, hx⟩),
    accepts_sub hall fun x hx => List.mem_append_right _ hx⟩

/-! ## One call -/

/-- The last iteration of the loop: what does not fill a block is held back. -/
theorem encodeLoop_last (p : Profile) {nullable : Bool} {st : List Bool} (m fuel : Nat)
    (pre rest : List (Option Bytes)) (pos : Nat)
    (e : Encoder) (l : List (Nat × Bytes)) (hem : e.minBlockSize = m) (hrem : Holds nullable st e.remaining [])
    (hf : fill m (valuesOf rest) = none) (hfit : m ≤ U32_MAX)
    (hpos : nullable = true → pos = pre.length) :
    ∃ e' : Encoder, encodeLoop p recorder (ofRows nullable (pre ++ rest)) (fuel + 1) (valuesOf pre).length pos
        (e, l) = (.ok (), (e', l)) ∧ e'.minBlockSize = m ∧ Holds nullable st e'.remaining (dropTrailingNulls rest) ∧
      e'.numRows = e.numRows := by
  obtain ⟨q, hq, hqe, hqv⟩ := dropTrailingNulls_spec rest
  have hv := dropTrailingNulls_values rest
  have hsmall := fill_none hf
  have hsrc := holds_ofRows nullable (pre ++ rest)
  have hlen : (ofRows nullable (pre ++ rest)).offsets.length = (valuesOf pre).length + (valuesOf rest).length + 1 := by
    rw [hsrc.offsets]; simp
  have hc := chunk_eq p (ofRows nullable (pre ++ rest)) (valuesOf pre) (valuesOf rest)
    (by rw [hsrc.offsets, valuesOf_append]) m
  rw [hf] at hc
  simp only at hc
  have hsrc' : Holds nullable [] (ofRows nullable (pre ++ rest)) (pre ++ dropTrailingNulls rest ++ q) := by
    rw [List.append_assoc, ← hq]; exact hsrc
  obtain ⟨dst', ha, hh⟩ := hrem.appendFrom p hsrc' pos hqe
    (by rw [List.nil_append, dataLen, hv]; omega) hpos
  rw [valuesOf_append, hv] at ha
  refine ⟨{ e with remaining := dst' }, ?_, hem, by simpa using hh, rfl⟩
  rw [encodeLoop, if_pos (by omega)]
  simp only [Run.bind_apply, Run.get_apply, hem, hc, Run.lift_ok, if_pos hsmall, ha, Run.set_apply]

theorem chunk_first (p : Profile) (nullable : Bool) (rows : List (Option Bytes)) (m j : Nat)
    (hf : fill m (valuesOf rows) = some j) :
    chunk p (ofRows nullable rows) 0 m = .ok (chunkOf [] (takeVals j rows)) := by
  have hj := (fill_some hf).1
  have hc := chunk_eq p (ofRows nullable rows) [] (valuesOf rows) rfl m
  rw [hf] at hc
  simp only [List.length_nil, Profile.sub_ok p (Nat.zero_le _), ok_bind, pure_eq_ok, List.flatten_nil,
    Nat.sub_zero, Nat.zero_add] at hc
  rw [hc]
  simp only [chunkOf, valuesOf_nil, List.length_nil, List.nil_append, byteCount_takeVals, takeVals_values,
    List.length_take, Nat.min_eq_left hj]
  rfl

theorem chunk_none (p : Profile) (nullable : Bool) (rows : List (Option Bytes)) (m : Nat)
    (hf : fill m (valuesOf rows) = none) :
    chunk p (ofRows nullable rows) 0 m = .ok (chunkOf [] rows) := by
  have hc := chunk_eq p (ofRows nullable rows) [] (valuesOf rows) rfl m
  rw [hf] at hc
  simp only [List.length_nil, List.flatten_nil, List.nil_append] at hc
  rw [hc]
  simp only [chunkOf, valuesOf_nil, List.length_nil, List.nil_append, byteCount]
  rfl

theorem encode_ok (p : Profile) (nullable : Bool) (stale : List Bool) (m : Nat) (hm : 0 < m) (hm32 : m ≤ U32_MAX)
    (held b : List (Option Bytes)) (e : Encoder) (l : List (Nat × Bytes))
    (hem : e.minBlockSize = m) (hrem : Holds nullable stale e.remaining held) (hhe : EndsWithValue held)
    (hlt : byteCount held < m) (hha : Accepts nullable held) (hba : Accepts nullable b)
    (hfit : byteCount b ≤ U32_MAX)
    (hg1 : (fillStep m held b).1 ≠ [] → byteCount (fillStep m held b).2 < m)
    (hg2 : ∀ g ∈ (fillStep m held b).1, GroupFits held g)
    (hrows : e.numRows + held.length + b.length < 2 ^ 32) :
    ∃ e' : Encoder, encode p recorder (ofRows nullable b) (e, l) =
        (.ok (), (e', l ++ blocksWith nullable e.numRows
          (withBits nullable (if held = [] then [] else stale) (fillStep m held b).1))) ∧
      e'.minBlockSize = m ∧
      Holds nullable (nextStale stale held (fillStep m held b).1) e'.remaining (fillStep m held b).2 ∧
      e'.numRows = e.numRows +
        countBits (withBits nullable (if held = [] then [] else stale) (fillStep m held b).1) := by
  have hU : U32_MAX = 2 ^ 32 - 1 := rfl
  have hval := fillStep_values (b := b) hlt
  have hacc := fillStep_accepts m hha hba
  have hends := fillStep_ends m (b := b) hhe
  have hrl := congrArg List.length (fillStep_rows m held b)
  have hdl := dropTrailingNulls_length_le b
  simp only [List.length_append] at hrl
  have hol : (ofRows nullable b).offsets.length = (valuesOf b).length + 1 := by simp [ofRows]
  by_cases hnil : held = []
  · -- nothing held back
    subst hnil
    have hl0 : ¬ e.remaining.len > 0 := by rw [hrem.len]; simp
    simp only [encode, Run.bind_apply, Run.get_apply, if_neg hl0]
    simp only [fillStep, show m - byteCount [] = m from rfl, nextStale, if_true] at hval hacc hends hrl hg1 hg2 ⊢
    cases hf : fill m (valuesOf b) with
    | none =>
      simp only [hf] at hval hacc hends hrl hg1 hg2 ⊢
      obtain ⟨e', h1, h2, h3, h4⟩ := encodeLoop_last p m ((ofRows nullable b).offsets.length) [] b 0 e l hem
        hrem hf hm32 (fun _ => rfl)
      exact ⟨e', by simpa [blocksWith, withBits] using h1, h2, by simpa using h3, by simpa [withBits, countBits] using h4⟩
    | some j =>
      simp only [hf] at hval hacc hends hrl hg1 hg2 ⊢
      simp only [List.nil_append,
        List.mem_singleton, forall_eq, List.flatten_cons, List.flatten_nil, List.append_nil] at hval hacc hends hrl hg1 hg2 ⊢
      have hj := (fill_some hf).1
      have hsplit := takeVals_append_drop j b
      have hlen1 : (takeVals j b).length ≤ b.length := (takeVals_prefix j b).length_le
      have hbc : byteCount (takeVals j b) ≤ byteCount b := by
        have := congrArg byteCount hsplit
        rw [byteCount_append] at this; omega
      have hsrc : Holds nullable [] (ofRows nullable b) ([] ++ takeVals j b ++ b.drop (takeVals j b).length) := by
        rw [List.nil_append, hsplit]; exact holds_ofRows _ _
      have hvl := valuesOf_length_le (takeVals j b)
      obtain ⟨e1, w1, w2, w3, w4⟩ := writeBlock_ok p (b := ofRows nullable b) (mid := takeVals j b)
        (post := b.drop (takeVals j b).length) hsrc (hsrc.shows_mid hacc.1 hends.1) e l
        (by omega) hval.1 hg2.1 (by rw [validityOf_length]; omega)
        (by rw [validityOf_length]; simp only [List.length_nil] at hrows; omega)
      have hge : ¬ (chunkOf [] (takeVals j b)).size < m := by
        simp only [chunkOf]; omega
      have hnone : fill m (valuesOf (b.drop (takeVals j b).length)) = none := by
        cases hx : fill m (valuesOf (b.drop (takeVals j b).length)) with
        | none => rfl
        | some k =>
          have h1 := fill_some hx
          have h2 := hg1 (by simp)
          rw [byteCount_dropTrailingNulls, byteCount] at h2
          have h3 : ((valuesOf (b.drop (takeVals j b).length)).take k).flatten.length ≤
              (valuesOf (b.drop (takeVals j b).length)).flatten.length := by
            conv => rhs; rw [← List.take_append_drop k (valuesOf (b.drop (takeVals j b).length))]
            rw [List.flatten_append, List.length_append]; omega
          omega
      have hendpos : (chunkOf [] (takeVals j b)).endPos = (valuesOf (takeVals j b)).length := rfl
      obtain ⟨e', h1, h2, h3, h4⟩ := encodeLoop_last p m (valuesOf b).length (takeVals j b)
        (b.drop (takeVals j b).length) (if nullable then (validityOf (takeVals j b)).length else 0) e1
        (l ++ [(e.numRows + (validityOf (takeVals j b)).length - 1,
          blockWith nullable (takeVals j b) (validityOf (takeVals j b)))]) (by rw [w3, hem])
        (by rw [w2]; exact hrem) hnone hm32 (fun h => by rw [h, validityOf_length]; rfl)
      rw [hsplit] at h1
      refine ⟨e', ?_, h2, h3, by rw [h4, w4]; simp [withBits, countBits, writtenBits_nil nullable hends.1]⟩
      rw [hol, encodeLoop, if_pos (by omega)]
      simp only [Run.bind_apply, Run.get_apply, hem, chunk_first p nullable b m j hf, Run.lift_ok, if_neg hge, w1,
        hendpos, h1, blocksWith, withBits, List.map_cons, List.map_nil, writtenBits_nil nullable hends.1]
  · -- completing the rows held back
    have hl0 : e.remaining.len > 0 := by
      rw [hrem.len]
      rcases Nat.eq_zero_or_pos (valuesOf held).length with h | h
      · exact absurd ((ends_nil_iff hhe).mp h) hnil
      · exact h
    have hdata : e.remaining.data.length = byteCount held := by rw [hrem.data, byteCount]
    simp only [encode, Run.bind_apply, Run.get_apply, if_pos hl0, hem, hdata, if_neg hnil]
    rw [Profile.sub_ok p (by omega)]
    simp only [Run.lift_ok]
    simp only [fillStep, nextStale, if_neg hnil] at hval hacc hends hrl hg1 hg2 ⊢
    cases hf : fill (m - byteCount held) (valuesOf b) with
    | none =>
      simp only [hf] at hval hacc hends hrl hg1 hg2 ⊢
      obtain ⟨q, hq, hqe, hqv⟩ := dropTrailingNulls_spec b
      have hv := dropTrailingNulls_values b
      have hlt2 := fill_none hf
      obtain ⟨dst', ha, hh⟩ := hrem.appendFrom p (pre := []) (mid := dropTrailingNulls b) (post := q)
        (src := ofRows nullable b) (by rw [List.nil_append, ← hq]; exact holds_ofRows _ _) 0 hqe
        (by rw [dataLen_append]; simp only [dataLen, hv]; simp only [byteCount] at hlt2 hlt hfit; omega)
        (fun _ => rfl)
      rw [List.nil_append, hv] at ha
      have hd2 : dst'.data.length < m := by
        rw [hh.data]
        show byteCount (held ++ dropTrailingNulls b) < m
        rw [byteCount_append, byteCount_dropTrailingNulls]
        simp only [byteCount] at hlt2 hlt ⊢
        omega
      rw [chunk_none p nullable b _ hf]
      have hcp : (chunkOf [] b).endPos = (valuesOf b).length := rfl
      have hsp : (chunkOf [] b).startPos = (valuesOf ([] : List (Option Bytes))).length := rfl
      simp only [Run.lift_ok, hcp, hsp, ha, Run.set_apply, if_pos hd2]
      refine ⟨{ e with remaining := dst' }, by simp [blocksWith, withBits, hem, Run.pure_apply], hem, ?_,
        by simp [withBits, countBits]⟩
      simpa using hh
    | some j =>
      simp only [hf] at hval hacc hends hrl hg1 hg2 ⊢
      simp only [List.mem_singleton, forall_eq, List.flatten_cons, List.flatten_nil, List.append_nil,
        List.foldl_cons, List.foldl_nil] at hval hacc hends hrl hg1 hg2 ⊢
      have hj := fill_some hf
      have hsplit := takeVals_append_drop j b
      have hlen1 : (takeVals j b).length ≤ b.length := (takeVals_prefix j b).length_le
      have hbc : byteCount (takeVals j b) ≤ byteCount b := by
        have := congrArg byteCount hsplit
        rw [byteCount_append] at this; omega
      have hbt := byteCount_takeVals j b
      obtain ⟨dst', ha, hh⟩ := hrem.appendFrom p (pre := []) (mid := takeVals j b)
        (post := b.drop (takeVals j b).length)
        (src := ofRows nullable b) (by rw [List.nil_append, hsplit]; exact holds_ofRows _ _) 0
        (takeVals_ends j b hj.1)
        (hg2.2 hnil)
        (fun _ => rfl)
      rw [List.nil_append] at ha
      have hd2 : ¬ dst'.data.length < m := by
        rw [hh.data]
        show ¬ byteCount (held ++ takeVals j b) < m
        omega
      rw [chunk_first p nullable b _ j hf]
      have hcp : (chunkOf [] (takeVals j b)).endPos = (valuesOf (takeVals j b)).length := rfl
      have hsp : (chunkOf [] (takeVals j b)).startPos = (valuesOf ([] : List (Option Bytes))).length := rfl
      simp only [Run.lift_ok, hcp, hsp, ha, Run.bind_apply, Run.set_apply, if_neg hd2, List.length_nil, Nat.zero_add]
      have hbh : byteCount (held ++ takeVals j b) < 2 ^ 64 := by rw [byteCount_append]; omega
      obtain ⟨e1, res, w1, w2, w3, w4⟩ := writeRemaining_ok p { e with remaining := dst' } l hh
        hacc.1 hbh hval.1 hg2.1 (by rw [List.length_append]; simp only; omega)
      have w1' : writeRemaining p recorder (⟨dst', e.encodedData, e.offsetDeltas, e.bitmapEncoder, m, e.numRows⟩, l) =
          (.ok res, (e1, l ++ [(e.numRows + (writtenBits nullable stale (held ++ takeVals j b)).length - 1,
            blockWith nullable (held ++ takeVals j b) (writtenBits nullable stale (held ++ takeVals j b)))])) := by
        rw [← w1, ← hem]
      rw [w1']
      have hnone : fill m (valuesOf (b.drop (takeVals j b).length)) = none := by
        cases hx : fill m (valuesOf (b.drop (takeVals j b).length)) with
        | none => rfl
        | some k =>
          have h1 := fill_some hx
          have h2 := hg1 (by simp)
          rw [byteCount_dropTrailingNulls, byteCount] at h2
          have h3 : ((valuesOf (b.drop (takeVals j b).length)).take k).flatten.length ≤
              (valuesOf (b.drop (takeVals j b).length)).flatten.length := by
            conv => rhs; rw [← List.take_append_drop k (valuesOf (b.drop (takeVals j b).length))]
            rw [List.flatten_append, List.length_append]; omega
          omega
      simp only
      obtain ⟨e', h1, h2, h3, h4⟩ := encodeLoop_last p m (ofRows nullable b).offsets.length (takeVals j b)
        (b.drop (takeVals j b).length) (if nullable then (takeVals j b).length else (valuesOf (takeVals j b)).length)
        { e1 with remaining := e1.remaining.clear }
        (l ++ [(e.numRows + (writtenBits nullable stale (held ++ takeVals j b)).length - 1,
            blockWith nullable (held ++ takeVals j b) (writtenBits nullable stale (held ++ takeVals j b)))])
        (by simp only [w3, hem])
        (by simp only [w2]; exact hh.clear) hnone hm32 (fun h => by rw [h]; rfl)
      rw [hsplit] at h1
      exact ⟨e', by simpa [blocksWith, withBits] using h1, h2, h3,
        by rw [h4]; simpa [withBits, countBits] using w4⟩

/-! ## Whole columns -/

/-- Fewer conditions: what is left of a column whose nulls are not looked at. -/
theorem manageable_orderly {m : Nat} {nullable : Bool} (bufs : List (List (Option Bytes))) :
    ∀ {st : List Bool} (st' : List Bool) {held : List (Option Bytes)}, Manageable m nullable st held bufs →
      Manageable m false st' held bufs := by
  induction bufs with
  | nil => intro st st' held h; exact ⟨h.1, nofun⟩
  | cons b bufs ih => intro st st' held h; exact ⟨h.1, h.2.1, nofun, ih _ h.2.2.2⟩

/-- What a run writes when every buffer leaves less than a block and no group has more than 128 items. -/
theorem encodeColumn_written (p : Profile) (nullable : Bool) (m : Nat) (hm : 0 < m) (hm32 : m ≤ U32_MAX)
    (bufs : List (List (Option Bytes))) : ∀ (stale : List Bool) (held : List (Option Bytes)) (e : Encoder)
    (l : List (Nat × Bytes)),
    e.minBlockSize = m → Holds nullable stale e.remaining held → EndsWithValue held →
    byteCount held < m → Accepts nullable held → (∀ b ∈ bufs, Accepts nullable b) →
    (∀ b ∈ bufs, byteCount b ≤ U32_MAX) → Manageable m false stale held bufs →
    e.numRows + held.length + bufs.flatten.length < 2 ^ 32 →
    ∃ e' : Encoder, encodeColumn p recorder (bufs.map (ofRows nullable)) (e, l) =
        (.ok (), (e', l ++ blocksWith nullable e.numRows (fillPairs m nullable stale held bufs))) := by
  have hU : U32_MAX = 2 ^ 32 - 1 := rfl
  induction bufs with
  | nil =>
    intro stale held e l hem hrem hhe hlt hha _ _ hman hrows
    simp only [encodeColumn, List.map_nil, encodeAll, Run.bind_apply, Run.pure_apply, flush, Run.get_apply,
      fillPairs, hrem.len]
    by_cases h0 : (valuesOf held).length = 0
    · rw [if_neg (by omega), if_pos h0]
      exact ⟨e, by simp [blocksWith, Run.pure_apply]⟩
    · rw [if_pos (by omega), if_neg h0]
      obtain ⟨e1, res, w1, _⟩ := writeRemaining_ok p e l hrem hha (by omega) (by omega) hman.1
        (by simp only [List.flatten_nil, List.length_nil] at hrows; omega)
      exact ⟨e1, by simp [Run.bind_apply, w1, Run.pure_apply, blocksWith]⟩
  | cons b bufs ih =>
    intro stale held e l hem hrem hhe hlt hha hba hfit hman hrows
    obtain ⟨hg1, hg2, _, hman'⟩ := hman
    rw [List.flatten_cons, List.length_append] at hrows
    obtain ⟨e1, h1, h2, h3, h4⟩ := encode_ok p nullable stale m hm hm32 held b e l hem hrem hhe hlt hha
      (hba b (by simp)) (hfit b (by simp)) hg1 hg2 (by omega)
    have hrl := congrArg List.length (fillStep_rows m held b)
    have hdl := dropTrailingNulls_length_le b
    have hcl := countBits_withBits_le nullable (if held = [] then [] else stale) (fillStep m held b).1
    simp only [List.length_append] at hrl
    obtain ⟨e', h⟩ := ih _ _ e1 (l ++ blocksWith nullable e.numRows
        (withBits nullable (if held = [] then [] else stale) (fillStep m held b).1)) h2 h3
      (fillStep_ends m hhe).2 (fillStep_small hlt hg1) (fillStep_accepts m hha (hba b (by simp))).2
      (fun b' hb' => hba b' (by simp [hb'])) (fun b' hb' => hfit b' (by simp [hb'])) hman' (by omega)
    refine ⟨e', ?_⟩
    simp only [encodeColumn, List.map_cons, encodeAll, Run.bind_apply, h1] at h ⊢
    rw [h, fillPairs, blocksWith_append, h4, List.append_assoc]

/-- On manageable histories the bits written are those of the rows. -/
theorem fillPairs_bits {m : Nat} {nullable : Bool} (bufs : List (List (Option Bytes))) :
    ∀ (stale : List Bool) (held : List (Option Bytes)), EndsWithValue held →
    Manageable m nullable stale held bufs → ∀ g ∈ fillPairs m nullable stale held bufs, g.2 = validityOf g.1 := by
  induction bufs with
  | nil =>
    intro stale held hh hman g hg
    simp only [fillPairs] at hg
    split at hg
    · simp at hg
    · simp only [List.mem_singleton] at hg; subst hg
      exact writtenBits_seen nullable hh hman.2
  | cons b bufs ih =>
    intro stale held hh hman g hg
    obtain ⟨_, _, hg3, hman'⟩ := hman
    rw [fillPairs, List.mem_append] at hg
    have hends := fillStep_ends m (b := b) hh
    rcases hg with hg | hg
    · obtain ⟨g', hg', rfl⟩ := List.mem_map.mp hg
      by_cases hnil : held = []
      · simp only [if_pos hnil]
        exact writtenBits_nil nullable (hends.1 g' hg')
      · simp only [if_neg hnil]
        exact writtenBits_seen nullable (hends.1 g' hg') (fun h => hg3 h hnil g' hg')
    · exact ih _ _ hends.2 hman' g hg

theorem encodeColumn_ok (p : Profile) (nullable : Bool) (m : Nat) (hm : 0 < m) (hm32 : m ≤ U32_MAX)
    (bufs : List (List (Option Bytes))) (stale : List Bool) (held : List (Option Bytes)) (e : Encoder)
    (l : List (Nat × Bytes))
    (hem : e.minBlockSize = m) (hrem : Holds nullable stale e.remaining held) (hhe : EndsWithValue held)
    (hlt : byteCount held < m) (hha : Accepts nullable held) (hba : ∀ b ∈ bufs, Accepts nullable b)
    (hfit : ∀ b ∈ bufs, byteCount b ≤ U32_MAX) (hman : Manageable m nullable stale held bufs)
    (hrows : e.numRows + held.length + bufs.flatten.length < 2 ^ 32) :
    ∃ e' : Encoder, encodeColumn p recorder (bufs.map (ofRows nullable)) (e, l) =
        (.ok (), (e', l ++ blocksOf nullable e.numRows (fillGroups m held bufs))) := by
  obtain ⟨e', h⟩ := encodeColumn_written p nullable m hm hm32 bufs stale held e l hem hrem hhe hlt hha hba hfit
    (manageable_orderly bufs _ hman) hrows
  rw [blocksWith_eq nullable _ _ (fillPairs_bits bufs stale held hhe hman), fillPairs_groups] at h
  exact ⟨e', h⟩

/-- The groups hold all rows but the trailing nulls of each buffer, in order. -/
theorem fillGroups_rows (m : Nat) (bufs : List (List (Option Bytes))) : ∀ held, EndsWithValue held →
    (fillGroups m held bufs).flatten = held ++ bufs.flatMap dropTrailingNulls := by
  induction bufs with
  | nil =>
    intro held hh
    simp only [fillGroups]
    split
    · rename_i h; rw [(ends_nil_iff hh).mp h]; rfl
    · simp
  | cons b bufs ih =>
    intro held hh
    rw [fillGroups, List.flatten_append, ih _ (fillStep_ends m hh).2, ← List.append_assoc, fillStep_rows]
    simp

theorem fillGroups_ends (m : Nat) (bufs : List (List (Option Bytes))) : ∀ held, EndsWithValue held →
    ∀ g ∈ fillGroups m held bufs, EndsWithValue g := by
  induction bufs with
  | nil =>
    intro held hh g hg
    simp only [fillGroups] at hg
    split at hg
    · simp at hg
    · simp only [List.mem_singleton] at hg; subst hg; exact hh
  | cons b bufs ih =>
    intro held hh g hg
    rw [fillGroups, List.mem_append] at hg
    rcases hg with hg | hg
    · exact (fillStep_ends m hh).1 g hg
    · exact ih _ (fillStep_ends m hh).2 g hg

theorem fillGroups_128 {m : Nat} {nullable : Bool} (bufs : List (List (Option Bytes))) : ∀ stale held,
    Manageable m nullable stale held bufs → ∀ g ∈ fillGroups m held bufs, (valuesOf g).length ≤ 128 := by
  induction bufs with
  | nil =>
    intro stale held hman g hg
    simp only [fillGroups] at hg
    split at hg
    · simp at hg
    · simp only [List.mem_singleton] at hg; subst hg; exact hman.1
  | cons b bufs ih =>
    intro stale held hman g hg
    obtain ⟨_, hg2, _, hman'⟩ := hman
    rw [fillGroups, List.mem_append] at hg
    rcases hg with hg | hg
    · exact (hg2 g hg).1
    · exact ih _ _ hman' g hg

/-- The completed group holds less than a block from before, and rows of the buffer. -/
theorem fillStep_bytes {m : Nat} {held b : List (Option Bytes)} :
    ∀ g ∈ (fillStep m held b).1, byteCount g ≤ byteCount held + byteCount b := by
  intro g hg
  have h := congrArg byteCount (fillStep_rows m held b)
  rw [byteCount_append, byteCount_append] at h
  have hd : byteCount (dropTrailingNulls b) = byteCount b := by
    rw [byteCount, dropTrailingNulls_values, byteCount]
  have hone : (fillStep m held b).1 = [g] := by
    revert hg
    simp only [fillStep]
    cases fill (m - byteCount held) (valuesOf b) with
    | none => simp
    | some j => intro hg; simp only [List.mem_singleton] at hg; rw [hg]
  rw [hone, List.flatten_cons, List.flatten_nil, List.append_nil] at h
  omega

/-- The bytes of a group can be counted in 32 bits. -/
theorem fillGroups_bytes {m : Nat} {nullable : Bool} (hm : m ≤ U32_MAX) (bufs : List (List (Option Bytes))) :
    ∀ stale held, byteCount held < m → (∀ b ∈ bufs, byteCount b ≤ U32_MAX) →
    Manageable m nullable stale held bufs → ∀ g ∈ fillGroups m held bufs, byteCount g < 2 ^ 32 := by
  have hU : U32_MAX = 2 ^ 32 - 1 := rfl
  induction bufs with
  | nil =>
    intro stale held hlt _ _ g hg
    simp only [fillGroups] at hg
    split at hg
    · simp at hg
    · simp only [List.mem_singleton] at hg; subst hg; omega
  | cons b bufs ih =>
    intro stale held hlt hfit hman g hg
    obtain ⟨hman1, hman2, _, hman'⟩ := hman
    rw [fillGroups, List.mem_append] at hg
    rcases hg with hg | hg
    · have h1 := fillStep_bytes g hg
      have h2 := hfit b (by simp)
      by_cases hnil : held = []
      · rw [hnil, show byteCount [] = 0 from rfl] at h1; omega
      · have := (hman2 g hg).2 hnil; omega
    · exact ih _ _ (fillStep_small hlt hman1) (fun x hx => hfit x (List.mem_cons_of_mem _ hx)) hman' g hg

end Meerkat.BinaryEnc
