import Verif.Spec.BinaryWritten
import Verif.Proofs.BinaryExact

set_option autoImplicit false

/-! # Whether the calls of the binary encoder return -/

namespace Meerkat.BinaryEnc
open Spec Varint BinaryBuffer

/-- The bytes of a block. -/
def entryBytes (nullable : Bool) (x : Entry) : Bytes :=
  varintBytes x.data.flatten.length ++ x.data.flatten ++ Offsets.offsetBytes (x.items.map List.length) ++
    if nullable then Rle.rleBytes x.bits else []

/-- The blocks given to the sink when `n` rows were counted before. -/
def entryBlocks (nullable : Bool) : Nat → List Entry → List (Nat × Bytes)
  | _, [] => []
  | n, x :: xs => (n + x.counted - 1, entryBytes nullable x) :: entryBlocks nullable (n + x.counted) xs

/-- The rows counted for blocks. -/
def countEntries (xs : List Entry) : Nat := (xs.map (·.counted)).sum

theorem entryBlocks_append (nullable : Bool) (n : Nat) (xs ys : List Entry) :
    entryBlocks nullable n (xs ++ ys) = entryBlocks nullable n xs ++ entryBlocks nullable (n + countEntries xs) ys := by
  induction xs generalizing n with
  | nil => simp [entryBlocks, countEntries]
  | cons x xs ih => simp [entryBlocks, countEntries, ih, Nat.add_assoc]

theorem wholeEntry_bytes (nullable : Bool) (st : List Bool) (rows : List (Option Bytes)) :
    (wholeEntry nullable st rows).counted = (writtenBits nullable st rows).length ∧
    entryBytes nullable (wholeEntry nullable st rows) = blockWith nullable rows (writtenBits nullable st rows) := by
  rw [writtenBits_upto]
  exact ⟨rfl, rfl⟩

/-- What every block that is written satisfies: at most 128 items, sizes of 32 bits, at most `n` bits, one set for each item. -/
def Sound (n : Nat) (x : Entry) : Prop :=
  x.items.length ≤ 128 ∧ x.data.flatten.length < 2 ^ 32 ∧ (∀ v ∈ x.items, v.length < 2 ^ 32) ∧ x.bits.length ≤ n ∧
    x.bits.count true = x.items.length

theorem Sound.mono {n k : Nat} {x : Entry} (h : Sound n x) (hk : n ≤ k) : Sound k x :=
  ⟨h.1, h.2.1, h.2.2.1, Nat.le_trans h.2.2.2.1 hk, h.2.2.2.2⟩

theorem item_le {vs : List Bytes} {v : Bytes} (h : v ∈ vs) : v.length ≤ vs.flatten.length :=
  (List.sublist_flatten_of_mem h).length_le

theorem flatten_le {vs ws : List Bytes} (h : vs.Sublist ws) : vs.flatten.length ≤ ws.flatten.length := by
  induction h with
  | slnil => exact Nat.le_refl _
  | cons a _ ih => rw [List.flatten_cons, List.length_append]; omega
  | cons_cons a _ ih => rw [List.flatten_cons, List.flatten_cons, List.length_append, List.length_append]; omega

theorem behind_values (n : Nat) (rows : List (Option Bytes)) : valuesOf (behind n rows) = (valuesOf rows).drop n := by
  have h := congrArg valuesOf (takeVals_append_drop n rows)
  rw [valuesOf_append, takeVals_values] at h
  have h2 := congrArg (List.drop ((valuesOf rows).take n).length) h
  rw [List.drop_left] at h2
  rw [behind, h2, List.length_take]
  rcases Nat.le_total n (valuesOf rows).length with hn | hn
  · rw [Nat.min_eq_left hn]
  · rw [Nat.min_eq_right hn, List.drop_length, List.drop_eq_nil_of_le hn]

theorem loopEntries_sound (m : Nat) (nullable : Bool) (rows : List (Option Bytes)) (hr : byteCount rows < 2 ^ 32) :
    ∀ (n pos : Nat), ∀ x ∈ loopEntries m nullable rows n pos, Sound rows.length x := by
  intro n
  induction n with
  | zero => intro pos x hx; simp [loopEntries] at hx
  | succ n ih =>
    intro pos x hx
    rw [loopEntries] at hx
    cases hf : fill m ((valuesOf rows).drop pos) with
    | none => rw [hf] at hx; simp at hx
    | some j =>
      rw [hf] at hx
      simp only at hx
      split at hx
      · rename_i hc
        rcases List.mem_cons.mp hx with rfl | hx
        · have hd : ∀ k, (((valuesOf rows).drop pos).take k).flatten.length < 2 ^ 32 := fun k =>
            Nat.lt_of_le_of_lt (flatten_le ((List.take_sublist ..).trans (List.drop_sublist ..))) hr
          refine ⟨?_, hd j, fun v hv => Nat.lt_of_le_of_lt (item_le hv) (hd _), ?_, ?_⟩
          · simp only [List.length_take]; omega
          · rw [validityOf_length]
            have h1 := (takeVals_prefix (j - pos) (behind pos rows)).length_le
            have h2 : (behind pos rows).length ≤ rows.length := by simp [behind]
            omega
          · rw [count_validityOf, takeVals_values, behind_values]
        · exact ih j x hx
      · simp at hx

theorem wholeEntry_sound (nullable : Bool) (st : List Bool) (rows : List (Option Bytes)) (h128 : (valuesOf rows).length ≤ 128)
    (hr : byteCount rows < 2 ^ 32) : Sound rows.length (wholeEntry nullable st rows) := by
  refine ⟨h128, hr, fun v hv => Nat.lt_of_le_of_lt (item_le hv) hr, ?_, ?_⟩
  · have := writtenBits_length_le nullable st rows
    rw [writtenBits_upto] at this
    exact this
  · show (if nullable then uptoSet (valuesOf rows).length (seenBits st rows) else validityOf rows).count true = _
    cases nullable with
    | false => exact count_validityOf rows
    | true =>
      obtain ⟨bits, h⟩ := takeSet_seenBits st rows
      rw [if_pos rfl, ← takeSet_upto _ _ _ h]
      exact ((takeSet_spec _ _ _).mp h).2

theorem addRows_error {a b : Nat} (h : ¬ a + b < 2 ^ 32) : addRows a b = .error .expect := by
  rw [addRows, if_neg (fun hc => h hc.2)]

/-- `write_block` for the items of `mid`, whatever the end of the data bytes. -/
theorem writeBlock_misplaced (p : Profile) {nullable : Bool} {pre mid post : List (Option Bytes)}
    (hacc : Accepts nullable mid) (hend : EndsWithValue mid) (pos eo size : Nat) (content : Bytes)
    (hsl : slice (ofRows nullable (pre ++ mid ++ post)).data (byteCount pre) eo = .ok content) (hsize : size < 2 ^ 64)
    (h1 : 1 ≤ (valuesOf mid).length) (h128 : (valuesOf mid).length ≤ 128)
    (hpos : nullable = true → pos = pre.length) (hml : mid.length < 2 ^ 64) (e : Encoder) (l : List (Nat × Bytes))
    {n : Nat} (hN : n = if nullable then pre.length + mid.length else (valuesOf mid).length) :
    (e.numRows + n < 2 ^ 32 → ∃ (r : EncodeResult) (e' : Encoder) (l' : List (Nat × Bytes)),
      writeBlock p recorder (ofRows nullable (pre ++ mid ++ post))
        ⟨(valuesOf pre).length, (valuesOf (pre ++ mid)).length, byteCount pre, eo, size, (valuesOf mid).length⟩ pos (e, l) =
          (.ok r, (e', l')) ∧
      l' = l ++ [(e.numRows + n - 1,
            varintBytes size ++ content ++ Offsets.offsetBytes ((valuesOf mid).map List.length) ++
              if nullable then Rle.rleBytes (validityOf mid) else [])] ∧
      (nullable = true → r.lastValidityPos = pre.length + mid.length) ∧
      e'.remaining = e.remaining ∧ e'.minBlockSize = e.minBlockSize ∧
      e'.numRows = e.numRows + n) ∧
    (¬ e.numRows + n < 2 ^ 32 → ∃ f s', writeBlock p recorder (ofRows nullable (pre ++ mid ++ post))
        ⟨(valuesOf pre).length, (valuesOf (pre ++ mid)).length, byteCount pre, eo, size, (valuesOf mid).length⟩ pos (e, l) =
          (.error f, s')) := by
  have hb := holds_ofRows nullable (pre ++ mid ++ post)
  have hshow := hb.shows_mid hacc hend
  obtain ⟨be', hv⟩ := encodeValidity_shows p hshow e.bitmapEncoder (by rw [validityOf_length]; exact hml)
  rw [validityOf_length] at hv
  have hv' : PrimitiveEnc.encodeValidity p (ofRows nullable (pre ++ mid ++ post)).validity pos (valuesOf mid).length
      e.bitmapEncoder = .ok (⟨if nullable then pre.length + mid.length else (valuesOf mid).length,
        if nullable then pre.length + mid.length else 0⟩, if nullable then Rle.rleBytes (validityOf mid) else [], be') := by
    cases nullable with
    | true => rw [hpos rfl]; exact hv
    | false =>
      rw [hshow.1] at hv ⊢
      exact hv
  have hit : itemLens p (ofRows nullable (pre ++ mid ++ post)) ((valuesOf (pre ++ mid)).length - (valuesOf pre).length)
      (valuesOf pre).length = .ok ((valuesOf mid).map List.length) := by
    have := itemLens_eq p (ofRows nullable (pre ++ mid ++ post)) _ hb.offsets (valuesOf mid) (valuesOf pre) (valuesOf post)
      (by simp)
    rw [show (valuesOf (pre ++ mid)).length - (valuesOf pre).length = (valuesOf mid).length by simp]
    exact this
  have henc : ∃ r : Encoded, encodeBinaryBuffer p (ofRows nullable (pre ++ mid ++ post))
      ⟨(valuesOf pre).length, (valuesOf (pre ++ mid)).length, byteCount pre, eo, size, (valuesOf mid).length⟩ pos
        e.bitmapEncoder = .ok r ∧ r.result = ⟨if nullable then pre.length + mid.length else (valuesOf mid).length,
        if nullable then pre.length + mid.length else 0⟩ ∧
        r.data = varintBytes size ++ content ++ Offsets.offsetBytes ((valuesOf mid).map List.length) ++
          if nullable then Rle.rleBytes (validityOf mid) else [] := by
    simp only [encodeBinaryBuffer, putVarint_ok [] hsize, hsl, hit, ok_bind]
    rw [Offsets.encode_ok p _ _ (by simpa using h1) (by simpa using h128)]
    simp only [ok_bind, hv', pure_eq_ok]
    exact ⟨_, rfl, rfl, by simp⟩
  obtain ⟨r, hr, hres, hdata⟩ := henc
  have hn : r.result.numRows = n := by rw [hres, hN]
  have hge : 1 ≤ n := by
    have := valuesOf_length_le mid
    rw [hN]
    split <;> omega
  refine ⟨fun hrows => ?_, fun hrows => ?_⟩
  · simp only [writeBlock, Run.bind_apply, Run.get_apply, hr, Run.lift_ok, Run.set_apply, hn, addRows_ok hrows]
    rw [Profile.sub_ok p (by omega)]
    simp only [Run.lift_ok, Run.emit_recorder, Run.pure_apply]
    rw [hdata]
    refine ⟨_, _, _, rfl, rfl, fun h => ?_, rfl, rfl, rfl⟩
    rw [hres, h]; rfl
  · simp only [writeBlock, Run.bind_apply, Run.get_apply, hr, Run.lift_ok, Run.set_apply, hn, addRows_error hrows]
    exact ⟨_, _, rfl⟩

/-- `write_block` for all of `remaining` when the row counter would overflow. -/
theorem writeRemaining_overflow (p : Profile) {nullable : Bool} {st : List Bool} {rows : List (Option Bytes)}
    (e : Encoder) (l : List (Nat × Bytes)) (hb : Holds nullable st e.remaining rows)
    (hacc : Accepts nullable rows) (hsize : byteCount rows < 2 ^ 64) (hlen : rows.length < 2 ^ 64)
    (h1 : 1 ≤ (valuesOf rows).length) (h128 : (valuesOf rows).length ≤ 128)
    (hrows : ¬ e.numRows + (writtenBits nullable st rows).length < 2 ^ 32) :
    ∃ f s', writeRemaining p recorder (e, l) = (.error f, s') := by
  have hle := writtenBits_length_le nullable st rows
  have hshow := hb.shows_all hacc
  obtain ⟨be', ds, h⟩ := encodeBinaryBuffer_ok p (pre := []) (mid := rows) (post := []) (by simpa using hb) 0
    hshow e.bitmapEncoder (by omega) hsize h1 h128
  have hn : (if nullable then (writtenBits nullable st rows).length else (valuesOf rows).length) =
      (writtenBits nullable st rows).length := by
    cases nullable with
    | true => simp
    | false => simpa using hshow.2.symm
  simp only [Nat.zero_add, hn] at h
  simp only [writeRemaining, Run.bind_apply, Run.get_apply, wholeChunk_eq hb, Run.lift_ok, writeBlock, h, Run.set_apply,
    addRows_error hrows]
  exact ⟨_, _, rfl⟩

/-- `write_block` never returns for a chunk without items or with more than 128. -/
theorem writeBlock_count {S : Type} (p : Profile) (k : Sink S) (b : BinaryBuffer) (c : BinaryChunk) (pos : Nat)
    (e : Encoder) (s : S) (hsize : c.size < 2 ^ 64) (hlen : c.endPos < 2 ^ 63)
    (hbad : ¬ (c.startPos < c.endPos ∧ c.endPos - c.startPos ≤ 128)) :
    ∃ f st, writeBlock p k b c pos (e, s) = (.error f, st) := by
  rcases h : writeBlock p k b c pos (e, s) with ⟨f | r, st⟩
  · exact ⟨f, st, rfl⟩
  · exfalso
    simp only [writeBlock, Run.bind_apply, Run.get_apply] at h
    cases hr : encodeBinaryBuffer p b c pos e.bitmapEncoder with
    | error x => rw [hr] at h; cases (Prod.mk.inj h).1
    | ok r =>
      obtain ⟨content, deltas, v, _, h2, h3, h4, _⟩ := encodeBinaryBuffer_layout p b c pos _ hsize hlen hr
      have := itemLens_length p b _ _ _ h2
      omega

theorem ends_append {pre mid : List (Option Bytes)} (h : EndsWithValue mid) (h1 : 1 ≤ (valuesOf mid).length) :
    EndsWithValue (pre ++ mid) := by
  rcases h with h | ⟨v, h⟩
  · subst h; simp at h1
  · exact .inr ⟨v, by rw [List.getLast?_append, h]; rfl⟩

theorem takeVals_exact {a b : List (Option Bytes)} {n : Nat} (ha : EndsWithValue a) (h : (valuesOf a).length = n) :
    takeVals n (a ++ b) = a := by
  rw [takeVals_append_ge ha (by omega), h, Nat.sub_self]
  simp [takeVals]

/-- The loop returns exactly when `loopEnd` says so and the row counter stays in range, and holds back what `loopEnd` says. -/
theorem encodeLoop_total (p : Profile) {nullable : Bool} {st : List Bool} (m : Nat) (hm32 : m ≤ U32_MAX)
    (rows : List (Option Bytes)) (hacc : Accepts nullable rows) (hrl : rows.length < 2 ^ 32) (hbc : byteCount rows < 2 ^ 32) (fuel : Nat) :
    ∀ (pre rest : List (Option Bytes)) (pos : Nat) (e : Encoder) (l : List (Nat × Bytes)), rows = pre ++ rest →
    EndsWithValue pre → (nullable = true → pos = pre.length) → e.minBlockSize = m → Holds nullable st e.remaining [] →
    e.numRows < 2 ^ 32 →
    match loopEnd m (valuesOf rows) fuel (valuesOf pre).length with
    | none => ∃ f s', encodeLoop p recorder (ofRows nullable rows) fuel (valuesOf pre).length pos (e, l) = (.error f, s')
    | some s =>
      (e.numRows + countEntries (loopEntries m nullable rows fuel (valuesOf pre).length) < 2 ^ 32 →
        ∃ (e' : Encoder) (pre' rest' : List (Option Bytes)),
        encodeLoop p recorder (ofRows nullable rows) fuel (valuesOf pre).length pos (e, l) =
          (.ok (), (e', l ++ entryBlocks nullable e.numRows (loopEntries m nullable rows fuel (valuesOf pre).length))) ∧
        rows = pre' ++ rest' ∧ EndsWithValue pre' ∧ (valuesOf pre').length = s ∧ e'.minBlockSize = m ∧
        Holds nullable st e'.remaining (dropTrailingNulls rest') ∧ byteCount rest' < m ∧
        e'.numRows = e.numRows + countEntries (loopEntries m nullable rows fuel (valuesOf pre).length)) ∧
      (¬ e.numRows + countEntries (loopEntries m nullable rows fuel (valuesOf pre).length) < 2 ^ 32 →
        ∃ f s', encodeLoop p recorder (ofRows nullable rows) fuel (valuesOf pre).length pos (e, l) = (.error f, s')) := by
  induction fuel with
  | zero => intro pre rest pos e l _ _ _ _ _ _; exact ⟨_, _, rfl⟩
  | succ fuel ih =>
    intro pre rest pos e l hr hpe hpos hem hrem hnr
    have hvals : valuesOf rows = valuesOf pre ++ valuesOf rest := by rw [hr, valuesOf_append]
    have hdrop : (valuesOf rows).drop (valuesOf pre).length = valuesOf rest := by rw [hvals, List.drop_left]
    rw [loopEnd, loopEntries, hdrop]
    cases hf : fill m (valuesOf rest) with
    | none =>
      simp only
      obtain ⟨e', h1, h2, h3, h4⟩ := encodeLoop_last p m fuel pre rest pos e l hem hrem hf hm32 hpos
      rw [← hr] at h1
      exact ⟨fun _ => ⟨e', pre, rest, by rw [h1]; simp [entryBlocks], hr, hpe, rfl, h2, h3, fill_none hf,
        by rw [h4]; simp [countEntries]⟩, fun h => absurd hnr (by simpa [countEntries] using h)⟩
    | some j =>
      simp only
      obtain ⟨f1, f2, f3⟩ := fill_some hf
      have hsrc := holds_ofRows nullable rows
      have hol : (ofRows nullable rows).offsets.length = (valuesOf pre).length + (valuesOf rest).length + 1 := by
        rw [hsrc.offsets, hvals]; simp
      have hc := chunk_eq p (ofRows nullable rows) (valuesOf pre) (valuesOf rest) (by rw [hsrc.offsets, hvals]) m
      rw [hf] at hc
      simp only at hc
      have hvl := valuesOf_length_le rows
      rw [hvals, List.length_append] at hvl
      have htk : ((valuesOf rest).take j).flatten.length ≤ byteCount rest := by
        rw [byteCount]
        conv => rhs; rw [← List.take_append_drop j (valuesOf rest)]
        rw [List.flatten_append, List.length_append]; omega
      have hbr : byteCount rows = byteCount pre + byteCount rest := by rw [hr, byteCount_append]
      have hlt : (valuesOf pre).length < (ofRows nullable rows).offsets.length := by omega
      rw [encodeLoop, if_pos hlt]
      simp only [Run.bind_apply, Run.get_apply, hem, hc]
      by_cases hgood : (valuesOf pre).length < j ∧ j - (valuesOf pre).length ≤ 128
      · rw [if_pos hgood]
        obtain ⟨mid, post, hmp, hmv, hme⟩ := exists_prefix_values rest (j - (valuesOf pre).length) (by omega)
        have hr2 : rows = pre ++ mid ++ post := by rw [hr, hmp, List.append_assoc]
        have hml : (valuesOf (pre ++ mid)).length = j := by rw [valuesOf_append, List.length_append]; omega
        have hrl2 := congrArg List.length hr2
        simp only [List.length_append] at hrl2
        have hsl : slice (ofRows nullable (pre ++ mid ++ post)).data (byteCount pre)
            (byteCount pre + ((valuesOf rest).take j).flatten.length) = .ok ((valuesOf rest).take j).flatten := by
          have := slice_flatten_mid (valuesOf pre) ((valuesOf rest).take j) ((valuesOf rest).drop j)
          rw [List.append_assoc, List.take_append_drop, ← hvals, List.flatten_append (L₁ := valuesOf pre),
            List.length_append] at this
          rw [← hr2]
          exact this
        have hvr : (valuesOf rest).length = (valuesOf mid).length + (valuesOf post).length := by
          rw [hmp, valuesOf_append, List.length_append]
        have hpm : EndsWithValue (pre ++ mid) := ends_append hme (by omega)
        have htake : takeVals j rows = pre ++ mid := by rw [hr2]; exact takeVals_exact hpm hml
        have hbehind : behind (valuesOf pre).length rows = rest := by
          rw [behind, hr, takeVals_exact hpe rfl, List.drop_left]
        have htmid : takeVals (j - (valuesOf pre).length) rest = mid := by rw [hmp]; exact takeVals_exact hme hmv
        have hitems : (valuesOf rest).take (j - (valuesOf pre).length) = valuesOf mid := by
          rw [hmp, valuesOf_append, ← hmv, List.take_left]
        obtain ⟨hwok, hwerr⟩ := writeBlock_misplaced p (nullable := nullable) (pre := pre) (mid := mid)
          (post := post) (accepts_sub hacc (fun x hx => by rw [hr2]; simp [hx])) hme pos
          (byteCount pre + ((valuesOf rest).take j).flatten.length) ((valuesOf rest).take j).flatten.length _ hsl
          (by omega) (by omega) (by omega) hpos (by omega) e l rfl
        have hbp : (valuesOf pre).flatten.length = byteCount pre := rfl
        have hcount : countEntries (loopEntries m nullable rows (fuel + 1) (valuesOf pre).length) =
            (if nullable then pre.length + mid.length else (valuesOf mid).length) +
              countEntries (loopEntries m nullable rows fuel j) := by
          rw [loopEntries, hdrop, hf]
          simp only [if_pos hgood, countEntries, List.map_cons, List.sum_cons, htake, List.length_append, hmv]
        rw [loopEntries, hdrop, hf] at hcount
        simp only at hcount
        rw [hcount]
        rw [Profile.sub_ok p (by omega)]
        simp only [ok_bind, pure_eq_ok, Run.lift_ok]
        rw [if_neg (by omega), Run.bind_apply, hbp]
        rw [hml, ← hr2, hmv] at hwok hwerr
        by_cases hrows : e.numRows + (if nullable then pre.length + mid.length else j - (valuesOf pre).length) < 2 ^ 32
        · obtain ⟨r, e1, l1, w1, w1l, w2, w3, w4, w5⟩ := hwok hrows
          rw [w1]
          simp only
          have := ih (pre ++ mid) post r.lastValidityPos e1 l1 (by rw [hr2]) hpm
            (fun h => by rw [w2 h, List.length_append]) (by rw [w4, hem]) (by rw [w3]; exact hrem)
            (by rw [w5]; omega)
          rw [hml] at this
          cases hle : loopEnd m (valuesOf rows) fuel j with
          | none => rw [hle] at this; exact this
          | some s =>
            rw [hle] at this
            obtain ⟨tok, terr⟩ := this
            rw [w5, Nat.add_assoc] at tok terr
            refine ⟨fun hc => ?_, fun hc => terr (by rw [hmv] at hc; exact hc)⟩
            obtain ⟨e', pre', rest', t1, t2, t3, t4, t5, t6, t7, t8⟩ := tok (by rw [hmv] at hc; exact hc)
            rw [if_pos hgood, hbehind, htmid, hitems, htake]
            refine ⟨e', pre', rest', ?_, t2, t3, t4, t5, t6, t7, ?_⟩
            · rw [t1, w1l]
              simp only [entryBlocks, entryBytes, List.append_assoc, List.singleton_append, List.length_append]
            · rw [t8, hmv]
        · obtain ⟨f, s', hwe⟩ := hwerr hrows
          rw [hwe]
          simp only
          cases hle : loopEnd m (valuesOf rows) fuel j with
          | none => exact ⟨f, s', rfl⟩
          | some s => exact ⟨fun hc => absurd hc (by rw [hmv]; omega), fun _ => ⟨f, s', rfl⟩⟩
      · rw [if_neg hgood]
        simp only
        rcases hsub : p.sub 64 j (valuesOf pre).length with x | n
        · exact ⟨.panic x, (e, l), by simp [Run.lift, Except.bind, bind]⟩
        · simp only [ok_bind, pure_eq_ok, Run.lift_ok]
          rw [if_neg (by omega), Run.bind_apply]
          obtain ⟨f, s', hw⟩ := writeBlock_count p recorder (ofRows nullable rows)
            ⟨(valuesOf pre).length, j, (valuesOf pre).flatten.length,
              (valuesOf pre).flatten.length + ((valuesOf rest).take j).flatten.length,
              ((valuesOf rest).take j).flatten.length, n⟩ pos e l (by simp only; omega) (by simp only; omega) hgood
          rw [hw]
          exact ⟨f, s', rfl⟩

theorem drop_values {rows pre rest : List (Option Bytes)} {s : Nat} (h : rows = pre ++ rest)
    (hs : (valuesOf pre).length = s) : valuesOf (dropTrailingNulls rest) = (valuesOf rows).drop s := by
  rw [dropTrailingNulls_values, h, valuesOf_append, ← hs, List.drop_left]

theorem dropTrailingNulls_ends (rest : List (Option Bytes)) : EndsWithValue (dropTrailingNulls rest) := by
  obtain ⟨_, _, h, _⟩ := dropTrailingNulls_spec rest
  exact h

/-- `write_remaining` for more than 128 items does not return. -/
theorem writeRemaining_count (p : Profile) {nullable : Bool} {st : List Bool} {rows : List (Option Bytes)}
    (e : Encoder) (l : List (Nat × Bytes)) (hb : Holds nullable st e.remaining rows) (hsize : byteCount rows < 2 ^ 64)
    (hlen : (valuesOf rows).length < 2 ^ 63) (hbad : 128 < (valuesOf rows).length) :
    ∃ f s', writeRemaining p recorder (e, l) = (.error f, s') := by
  simp only [writeRemaining, Run.bind_apply, Run.get_apply, wholeChunk_eq hb, Run.lift_ok]
  refine writeBlock_count p recorder e.remaining (chunkOf [] rows) 0 e l hsize ?_ ?_
  · simp only [chunkOf, List.nil_append]; exact hlen
  · simp only [chunkOf, List.nil_append, valuesOf_nil, List.length_nil]; omega

/-- A call returns exactly when `heldAfter` says so and the row counter stays in range. -/
theorem encode_total (p : Profile) (nullable : Bool) (stale : List Bool) (m : Nat) (hm : 0 < m) (hm32 : m ≤ U32_MAX)
    (held b : List (Option Bytes)) (e : Encoder) (l : List (Nat × Bytes))
    (hem : e.minBlockSize = m) (hrem : Holds nullable stale e.remaining held) (hhe : EndsWithValue held)
    (hlt : byteCount held < m) (hha : Accepts nullable held) (hba : Accepts nullable b)
    (hfit : byteCount b ≤ U32_MAX) (hlen : held.length + b.length < 2 ^ 32) (hnr : e.numRows < 2 ^ 32) :
    match heldAfter m (valuesOf held) (valuesOf b) with
    | none => ∃ f s', encode p recorder (ofRows nullable b) (e, l) = (.error f, s')
    | some h' =>
      (e.numRows + countEntries (callEntries m nullable stale held b) < 2 ^ 32 →
        ∃ (e' : Encoder) (stale' : List Bool) (held' : List (Option Bytes)),
        encode p recorder (ofRows nullable b) (e, l) =
          (.ok (), (e', l ++ entryBlocks nullable e.numRows (callEntries m nullable stale held b))) ∧
        stale' = staleAfter m stale held b ∧ held' = heldRows m held b ∧
        (∀ x ∈ callEntries m nullable stale held b, Sound (held.length + b.length) x) ∧
        e'.numRows = e.numRows + countEntries (callEntries m nullable stale held b) ∧ valuesOf held' = h' ∧
        e'.minBlockSize = m ∧ Holds nullable stale' e'.remaining held' ∧ EndsWithValue held' ∧ byteCount held' < m ∧
        Accepts nullable held' ∧ held'.length ≤ held.length + b.length) ∧
      (¬ e.numRows + countEntries (callEntries m nullable stale held b) < 2 ^ 32 →
        ∃ f s', encode p recorder (ofRows nullable b) (e, l) = (.error f, s')) := by
  have hU : U32_MAX = 2 ^ 32 - 1 := rfl
  have hol : (ofRows nullable b).offsets.length = (valuesOf b).length + 1 := by simp [ofRows]
  have hdl : ∀ pre rest : List (Option Bytes), b = pre ++ rest → Accepts nullable (dropTrailingNulls rest) ∧
      (dropTrailingNulls rest).length ≤ b.length := by
    intro pre rest h
    have h1 := dropTrailingNulls_length_le rest
    have h2 := congrArg List.length h
    rw [List.length_append] at h2
    refine ⟨accepts_sub hba fun x hx => ?_, by omega⟩
    rw [h]
    exact List.mem_append_right _ (mem_of_mem_dropTrailingNulls hx)
  have hbeh : ∀ (pre rest : List (Option Bytes)) (s : Nat), b = pre ++ rest → EndsWithValue pre → (valuesOf pre).length = s →
      behind s b = rest := by
    intro pre rest s h1 h2 h3
    rw [behind, h1, takeVals_exact h2 h3, List.drop_left]
  by_cases hnil : held = []
  · subst hnil
    have hl0 : ¬ e.remaining.len > 0 := by rw [hrem.len]; simp
    simp only [encode, Run.bind_apply, Run.get_apply, if_neg hl0, heldAfter, valuesOf_nil, if_true]
    have h := encodeLoop_total p m hm32 b hba
      (by simp at hlen; omega) (by omega) ((ofRows nullable b).offsets.length + 1) [] b 0 e l rfl (.inl rfl) (fun _ => rfl) hem hrem
      hnr
    rw [hol] at h ⊢
    simp only [valuesOf_nil, List.length_nil] at h
    cases hle : loopEnd m (valuesOf b) ((valuesOf b).length + 2) 0 with
    | none => rw [hle] at h; exact h
    | some s =>
      rw [hle] at h
      have hce : callEntries m nullable stale [] b = loopEntries m nullable b ((valuesOf b).length + 2) 0 := by
        simp only [callEntries, if_true]
      rw [hce]
      simp only [Option.map_some]
      refine ⟨fun hc => ?_, h.2⟩
      obtain ⟨e', pre', rest', t1, t2, te, t3, t4, t5, t6, t8⟩ := h.1 hc
      rw [← hce] at t1 t8 ⊢
      refine ⟨e', stale, dropTrailingNulls rest', by simp only [callEntries, if_true]; exact t1,
        by simp only [staleAfter, if_true],
        by simp only [heldRows, if_true]; rw [hle, Option.getD_some, hbeh _ _ _ t2 te t3],
        by simp only [callEntries, if_true]
           exact fun x hx => (loopEntries_sound m nullable b (by omega) _ _ x hx).mono (by omega),
        by simp only [callEntries, if_true]; exact t8, drop_values t2 t3, t4, t5, dropTrailingNulls_ends _,
        by rw [byteCount_dropTrailingNulls]; exact t6, (hdl _ _ t2).1, by simpa using (hdl _ _ t2).2⟩
  · have hvnil : valuesOf held ≠ [] := fun h => hnil ((ends_nil_iff hhe).mp (by rw [h]; rfl))
    have hl0 : e.remaining.len > 0 := by
      rw [hrem.len]
      exact List.length_pos_iff.mpr hvnil
    have hvpos : 1 ≤ (valuesOf held).length := List.length_pos_iff.mpr hvnil
    have hdata : e.remaining.data.length = byteCount held := by rw [hrem.data, byteCount]
    simp only [encode, Run.bind_apply, Run.get_apply, if_pos hl0, hem, hdata, heldAfter, if_neg hvnil]
    rw [Profile.sub_ok p (by omega)]
    simp only [Run.lift_ok]
    have hbh : (valuesOf held).flatten.length = byteCount held := rfl
    rw [hbh]
    cases hf : fill (m - byteCount held) (valuesOf b) with
    | none =>
      simp only
      obtain ⟨q, hq, hqe, hqv⟩ := dropTrailingNulls_spec b
      have hv := dropTrailingNulls_values b
      have hlt2 := fill_none hf
      have hbb : (valuesOf b).flatten.length = byteCount b := rfl
      obtain ⟨dst', ha, hh⟩ := hrem.appendFrom p (pre := []) (mid := dropTrailingNulls b) (post := q)
        (src := ofRows nullable b) (by rw [List.nil_append, ← hq]; exact holds_ofRows _ _) 0 hqe
        (by rw [dataLen_append]; simp only [dataLen, hv]; omega)
        (fun _ => rfl)
      rw [List.nil_append, hv] at ha
      have hb2 : byteCount (held ++ dropTrailingNulls b) < m := by
        rw [byteCount_append, byteCount_dropTrailingNulls]; omega
      have hd2 : dst'.data.length < m := by
        rw [hh.data]; exact hb2
      rw [chunk_none p nullable b _ hf]
      have hcp : (chunkOf [] b).endPos = (valuesOf b).length := rfl
      have hsp : (chunkOf [] b).startPos = (valuesOf ([] : List (Option Bytes))).length := rfl
      simp only [Run.lift_ok, hcp, hsp, ha, Run.set_apply, if_pos hd2, Run.pure_apply]
      have hce : callEntries m nullable stale held b = [] := by simp only [callEntries, if_neg hnil, hf]
      refine ⟨fun _ => ?_, fun hc => absurd hnr (by rw [hce] at hc; simpa [countEntries] using hc)⟩
      refine ⟨_, stale, held ++ dropTrailingNulls b, by simp only [callEntries, if_neg hnil, hf, entryBlocks, List.append_nil]; rfl,
        by simp only [staleAfter, if_neg hnil, hf], by simp only [heldRows, if_neg hnil, hf],
        by simp [callEntries, if_neg hnil, hf], by simp [callEntries, if_neg hnil, hf, countEntries], by rw [valuesOf_append, hv], rfl, hh, ?_, hb2, ?_, ?_⟩
      · rcases hqe with h | ⟨v, h⟩
        · rw [h, List.append_nil]; exact hhe
        · right
          refine ⟨v, ?_⟩
          rw [List.getLast?_append, h]; rfl
      · rcases hha with h | h
        · exact .inl h
        · rcases (hdl [] b rfl).1 with h2 | h2
          · exact .inl h2
          · right; intro hn; rcases List.mem_append.mp hn with hn | hn
            · exact h hn
            · exact h2 hn
      · have := (hdl [] b rfl).2
        rw [List.length_append]; omega
    | some j =>
      have hj := fill_some hf
      have hsplit := takeVals_append_drop j b
      have hlen1 : (takeVals j b).length ≤ b.length := (takeVals_prefix j b).length_le
      have hbc : byteCount (takeVals j b) ≤ byteCount b := by
        have := congrArg byteCount hsplit
        rw [byteCount_append] at this; omega
      have hbt := byteCount_takeVals j b
      have htv : (valuesOf (takeVals j b)).length = j := by
        rw [takeVals_values, List.length_take, Nat.min_eq_left hj.1]
      have hbv : (valuesOf held ++ (valuesOf b).take j).flatten.length = byteCount (held ++ takeVals j b) := by
        rw [byteCount, valuesOf_append, takeVals_values]
      simp only [hbv]
      by_cases hov : byteCount (held ++ takeVals j b) < 2 ^ 32 - 1
      case neg =>
        rw [if_neg (fun h => hov h.2), chunk_first p nullable b _ j hf]
        simp only [Run.lift_ok]
        cases ha : e.remaining.appendFrom p (ofRows nullable b) (chunkOf [] (takeVals j b)).startPos
            (chunkOf [] (takeVals j b)).endPos 0 with
        | error x => exact ⟨_, _, rfl⟩
        | ok d =>
          exact absurd (gathered_fits p hrem ha) hov
      obtain ⟨dst', ha, hh⟩ := hrem.appendFrom p (pre := []) (mid := takeVals j b)
        (post := b.drop (takeVals j b).length)
        (src := ofRows nullable b) (by rw [List.nil_append, hsplit]; exact holds_ofRows _ _) 0
        (takeVals_ends j b hj.1) hov (fun _ => rfl)
      rw [List.nil_append] at ha
      have hd2 : ¬ dst'.data.length < m := by
        rw [hh.data]
        show ¬ byteCount (held ++ takeVals j b) < m
        rw [byteCount_append]
        omega
      rw [chunk_first p nullable b _ j hf]
      have hcp : (chunkOf [] (takeVals j b)).endPos = (valuesOf (takeVals j b)).length := rfl
      have hsp : (chunkOf [] (takeVals j b)).startPos = (valuesOf ([] : List (Option Bytes))).length := rfl
      simp only [Run.lift_ok, hcp, hsp, ha, Run.bind_apply, Run.set_apply, if_neg hd2]
      have hbh2 : byteCount (held ++ takeVals j b) < 2 ^ 64 := by rw [byteCount_append]; omega
      have hvl : (valuesOf (held ++ takeVals j b)).length = (valuesOf held).length + j := by
        rw [valuesOf_append, List.length_append, htv]
      have hhl := valuesOf_length_le held
      have hbl := valuesOf_length_le b
      by_cases h128 : (valuesOf held).length + j ≤ 128
      · rw [if_pos ⟨h128, hov⟩]
        have hacc : Accepts nullable (held ++ takeVals j b) := by
          rcases hha with h | h
          · exact .inl h
          · rcases hba with h2 | h2
            · exact .inl h2
            · right; intro hn; rcases List.mem_append.mp hn with hn | hn
              · exact h hn
              · exact h2 ((takeVals_prefix j b).subset hn)
        have hrest : (valuesOf (b.drop (takeVals j b).length)).length = (valuesOf b).length - j := by
          have := congrArg (fun l => (valuesOf l).length) hsplit
          simp only [valuesOf_append, List.length_append, htv] at this
          omega
        obtain ⟨hwc, hwbytes⟩ := wholeEntry_bytes nullable stale (held ++ takeVals j b)
        have hce : callEntries m nullable stale held b = wholeEntry nullable stale (held ++ takeVals j b) ::
            loopEntries m nullable b ((valuesOf b).length + 2) j := by simp only [callEntries, if_neg hnil, hf]
        have hcc : countEntries (callEntries m nullable stale held b) =
            (writtenBits nullable stale (held ++ takeVals j b)).length +
              countEntries (loopEntries m nullable b ((valuesOf b).length + 2) j) := by
          rw [hce]; simp only [countEntries, List.map_cons, List.sum_cons, hwc]
        have hbits := writtenBits_length_le nullable stale (held ++ takeVals j b)
        rw [List.length_append] at hbits
        by_cases hrows : e.numRows + (writtenBits nullable stale (held ++ takeVals j b)).length < 2 ^ 32
        case neg =>
          obtain ⟨f, s', hwe⟩ := writeRemaining_overflow p
            ⟨dst', e.encodedData, e.offsetDeltas, e.bitmapEncoder, m, e.numRows⟩ l hh hacc hbh2
            (by rw [List.length_append]; omega) (by rw [hvl]; omega) (by rw [hvl]; omega) hrows
          rw [hwe]
          simp only
          cases hle : loopEnd m (valuesOf b) ((valuesOf b).length + 2) j with
          | none => exact ⟨f, s', rfl⟩
          | some s => exact ⟨fun hc => absurd hc (by rw [hcc]; omega), fun _ => ⟨f, s', rfl⟩⟩
        obtain ⟨e1, w1, w2, w3, w4⟩ := writeBlock_ok p (post := []) (by simpa using hh) (hh.shows_all hacc)
          ⟨dst', e.encodedData, e.offsetDeltas, e.bitmapEncoder, m, e.numRows⟩ l hbh2
          (by rw [hvl]; omega) (by rw [hvl]; omega) (writtenBits_pos nullable stale (by rw [hvl]; omega)) hrows
        have w1' : writeRemaining p recorder (⟨dst', e.encodedData, e.offsetDeltas, e.bitmapEncoder, m, e.numRows⟩, l) =
            writeBlock p recorder dst' (chunkOf [] (held ++ takeVals j b)) 0
              (⟨dst', e.encodedData, e.offsetDeltas, e.bitmapEncoder, m, e.numRows⟩, l) := by
          simp only [writeRemaining, Run.bind_apply, Run.get_apply, wholeChunk_eq hh, Run.lift_ok]
        rw [w1', w1]
        simp only
        have h := encodeLoop_total p (st := afterClear stale (held ++ takeVals j b)) m hm32 b hba (by omega) (by omega)
          ((ofRows nullable b).offsets.length + 1) (takeVals j b) (b.drop (takeVals j b).length)
          (if nullable then (takeVals j b).length else (valuesOf (takeVals j b)).length)
          { e1 with remaining := e1.remaining.clear }
          (l ++ [(e.numRows + (writtenBits nullable stale (held ++ takeVals j b)).length - 1,
            blockWith nullable (held ++ takeVals j b) (writtenBits nullable stale (held ++ takeVals j b)))])
          hsplit.symm (takeVals_ends j b hj.1) (fun h => by rw [h]; rfl) (by simp only [w3]) (by simp only [w2]; exact hh.clear)
          (by simp only [w4]; exact hrows)
        simp only [List.length_nil, Nat.zero_add]
        rw [hol, htv] at h
        rw [hol, htv]
        cases hle : loopEnd m (valuesOf b) ((valuesOf b).length + 2) j with
        | none => rw [hle] at h; exact h
        | some s =>
          rw [hle] at h
          simp only [Option.map_some]
          rw [hcc, ← Nat.add_assoc]
          refine ⟨fun hc => ?_, fun hc => h.2 (by simp only [w4]; exact hc)⟩
          obtain ⟨e', pre', rest', t1, t2, te, t3, t4, t5, t6, t8⟩ := h.1 (by simp only [w4]; exact hc)
          refine ⟨e', _, dropTrailingNulls rest', ?_, by simp only [staleAfter, if_neg hnil, hf]; rfl,
            by simp only [heldRows, if_neg hnil, hf]; rw [hle, Option.getD_some, hbeh _ _ _ t2 te t3], ?_, ?_,
            drop_values t2 t3, t4, t5, dropTrailingNulls_ends _,
            by rw [byteCount_dropTrailingNulls]; exact t6, (hdl _ _ t2).1, ?_⟩
          · refine t1.trans ?_
            simp only [callEntries, if_neg hnil, hf, entryBlocks, hwc, hwbytes, w4, List.append_assoc, List.singleton_append]
          · simp only [callEntries, if_neg hnil, hf]
            intro x hx
            rcases List.mem_cons.mp hx with rfl | hx
            · exact (wholeEntry_sound nullable stale _ (by omega) (by omega)).mono
                (by rw [List.length_append]; omega)
            · exact (loopEntries_sound m nullable b (by omega) _ _ x hx).mono (by omega)
          · simp only [w4] at t8
            exact t8
          · have := (hdl _ _ t2).2; omega
      · rw [if_neg (fun h => h128 h.1)]
        obtain ⟨f, s', hw⟩ := writeRemaining_count p
          ⟨dst', e.encodedData, e.offsetDeltas, e.bitmapEncoder, m, e.numRows⟩ l hh hbh2 (by rw [hvl]; omega)
          (by rw [hvl]; omega)
        rw [hw]
        exact ⟨f, s', rfl⟩

/-- The calls for all buffers and `flush` return exactly when `Completes` says so and the row counter stays in range. -/
theorem encodeColumn_total (p : Profile) (nullable : Bool) (m : Nat) (hm : 0 < m) (hm32 : m ≤ U32_MAX) (bufs : List (List (Option Bytes))) : ∀ (stale : List Bool) (held : List (Option Bytes)) (e : Encoder)
    (l : List (Nat × Bytes)),
    e.minBlockSize = m → Holds nullable stale e.remaining held → EndsWithValue held →
    byteCount held < m → Accepts nullable held → (∀ b ∈ bufs, Accepts nullable b) →
    (∀ b ∈ bufs, byteCount b ≤ U32_MAX) → held.length + bufs.flatten.length < 2 ^ 32 → e.numRows < 2 ^ 32 →
    ((∃ (e' : Encoder) (l' : List (Nat × Bytes)),
      encodeColumn p recorder (bufs.map (ofRows nullable)) (e, l) = (.ok (), (e', l'))) ↔
      Completes m (valuesOf held) (bufs.map valuesOf) ∧
        e.numRows + countEntries (columnEntries m nullable stale held bufs) < 2 ^ 32) ∧
    (∀ (e' : Encoder) (l' : List (Nat × Bytes)),
      encodeColumn p recorder (bufs.map (ofRows nullable)) (e, l) = (.ok (), (e', l')) →
      l' = l ++ entryBlocks nullable e.numRows (columnEntries m nullable stale held bufs) ∧
      ∀ x ∈ columnEntries m nullable stale held bufs, Sound (held.length + bufs.flatten.length) x) := by
  have hU : U32_MAX = 2 ^ 32 - 1 := rfl
  induction bufs with
  | nil =>
    intro stale held e l hem hrem hhe hlt hha _ _ hrows hnr
    simp only [encodeColumn, List.map_nil, encodeAll, Run.bind_apply, Run.pure_apply, flush, Run.get_apply,
      Completes, hrem.len]
    have hvl := valuesOf_length_le held
    simp only [List.flatten_nil, List.length_nil, Nat.add_zero] at hrows
    by_cases h0 : (valuesOf held).length = 0
    · rw [if_neg (by omega)]
      have hce : columnEntries m nullable stale held [] = [] := by
        rw [columnEntries, if_pos (List.eq_nil_of_length_eq_zero h0)]
      refine ⟨⟨fun _ => ⟨by omega, by rw [hce]; simpa [countEntries] using hnr⟩, fun _ => ⟨e, l, rfl⟩⟩, fun e' l' h => ?_⟩
      have h2 : l = l' := congrArg (fun x => x.2.2) h
      simp [hce, entryBlocks, h2]
    · rw [if_pos (by omega)]
      have hce : columnEntries m nullable stale held [] = [wholeEntry nullable stale held] := by
        rw [columnEntries, if_neg (fun h => by rw [h] at h0; simp at h0)]
      obtain ⟨hwc, hwbytes⟩ := wholeEntry_bytes nullable stale held
      have hcc : countEntries (columnEntries m nullable stale held []) = (writtenBits nullable stale held).length := by
        rw [hce]; simp [countEntries, hwc]
      rw [hcc]
      have hwb := writtenBits_length_le nullable stale held
      by_cases h128 : (valuesOf held).length ≤ 128
      · by_cases hov : e.numRows + (writtenBits nullable stale held).length < 2 ^ 32
        · obtain ⟨e1, w1, _⟩ := writeBlock_ok p (post := []) (by simpa using hrem) (hrem.shows_all hha) e l (by omega)
            (by omega) h128 (writtenBits_pos nullable stale (by omega)) hov
          simp only [Run.bind_apply, writeRemaining, Run.get_apply, wholeChunk_eq hrem, Run.lift_ok, w1, Run.pure_apply]
          refine ⟨⟨fun _ => ⟨h128, hov⟩, fun _ => ⟨e1, _, rfl⟩⟩, fun e' l' h => ?_⟩
          have h2 := congrArg (fun x => x.2.2) h
          simp only at h2
          rw [hce, ← h2]
          simp only [entryBlocks, hwc, hwbytes, true_and]
          intro x hx
          rw [List.mem_singleton.mp hx]
          exact (wholeEntry_sound nullable stale held h128 (by omega)).mono (by simp)
        · obtain ⟨f, s', hf⟩ := writeRemaining_overflow p e l hrem hha (by omega) (by omega) (by omega) h128 hov
          refine ⟨⟨fun ⟨e', l', h⟩ => ?_, fun h => absurd h.2 hov⟩, fun e' l' h => ?_⟩ <;>
            (rw [Run.bind_apply, hf] at h; cases (Prod.mk.inj h).1)
      · obtain ⟨f, s', hf⟩ := writeRemaining_count p e l hrem (by omega) (by omega) (by omega)
        refine ⟨⟨fun ⟨e', l', h⟩ => ?_, fun h => absurd h.1 h128⟩, fun e' l' h => ?_⟩ <;>
          (rw [Run.bind_apply, hf] at h; cases (Prod.mk.inj h).1)
  | cons b bufs ih =>
    intro stale held e l hem hrem hhe hlt hha hba hfit hrows hnr
    simp only [List.flatten_cons, List.length_append] at hrows
    have h := encode_total p nullable stale m hm hm32 held b e l hem hrem hhe hlt hha (hba b (by simp))
      (hfit b (by simp)) (by omega) hnr
    have hcc : countEntries (columnEntries m nullable stale held (b :: bufs)) =
        countEntries (callEntries m nullable stale held b) +
          countEntries (columnEntries m nullable (staleAfter m stale held b) (heldRows m held b) bufs) := by
      rw [columnEntries]; simp [countEntries]
    rw [hcc]
    simp only [encodeColumn, List.map_cons, encodeAll, Run.bind_apply, Completes]
    cases hle : heldAfter m (valuesOf held) (valuesOf b) with
    | none =>
      rw [hle] at h
      obtain ⟨f, s', hf⟩ := h
      rw [hf]
      exact ⟨⟨fun ⟨e', l', h⟩ => (by cases (Prod.mk.inj h).1), fun h => h.1.elim⟩, fun e' l' h => (by cases (Prod.mk.inj h).1)⟩
    | some h' =>
      rw [hle] at h
      by_cases hov : e.numRows + countEntries (callEntries m nullable stale held b) < 2 ^ 32
      · obtain ⟨e1, stale', held', t1, ts, th, tg, tn, t2, t3, t4, t5, t6, t7, t8⟩ := h.1 hov
        have := ih stale' held' e1 (l ++ entryBlocks nullable e.numRows (callEntries m nullable stale held b)) t3 t4 t5 t6 t7 (fun b' hb' => hba b' (by simp [hb']))
          (fun b' hb' => hfit b' (by simp [hb'])) (by omega) (by rw [tn]; exact hov)
        rw [t1]
        simp only
        rw [t2, encodeColumn] at this
        simp only [Run.bind_apply] at this
        rw [tn, Nat.add_assoc, ts, th] at this
        refine ⟨this.1, fun e' l' h => ?_⟩
        obtain ⟨h2, h3⟩ := this.2 e' l' h
        rw [h2, columnEntries, entryBlocks_append, List.append_assoc]
        refine ⟨rfl, fun x hx => ?_⟩
        rw [List.flatten_cons, List.length_append]
        rcases List.mem_append.mp hx with hx | hx
        · exact (tg x hx).mono (by omega)
        · exact (h3 x hx).mono (by rw [← th]; omega)
      · obtain ⟨f, s', hf⟩ := h.2 hov
        rw [hf]
        exact ⟨⟨fun ⟨e', l', h⟩ => (by cases (Prod.mk.inj h).1), fun h => absurd h.2 (by omega)⟩,
          fun e' l' h => (by cases (Prod.mk.inj h).1)⟩

end Meerkat.BinaryEnc
