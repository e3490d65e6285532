import Verif.Props.AnyBinary
import Verif.Props.EncoderSink
import Verif.Proofs.Unwind

set_option autoImplicit false

/-! # C98: what a call on a buffer leaves when it panics -/

namespace Meerkat
open Spec

namespace Unwind

theorem appendFalse_eq (v : Option Bitmap) :
    validityAppendFalseRun v = match validityAppendFalse v with
      | .ok v' => (.ok (), v')
      | .error x => (.error (.panic x), v) := by
  cases v with
  | none => rfl
  | some m =>
    simp only [validityAppendFalseRun, validityAppendFalse, Bitmap.appendRun_eq]
    rcases m.append false with x | m' <;> rfl

theorem none_left (src : Bitmap) (pos : Nat) (dst : Bitmap) : src.appendFromRun pos 0 dst = (.ok pos, dst) := by
  rw [Bitmap.appendFromRun, if_pos rfl]

/-- `Bitmap::append_from` panics when it finds no bit to read any more, after it has appended all of them. -/
theorem bitmap_left {src : Bitmap} {ss : List Bool} (hs : Bitmap.Reads src ss) : ∀ (as : List Bool) (pos n : Nat),
    takeSet n (ss.drop pos) = none →
    src.appendFromRun pos n (Bitmap.ofBits as) = (.error (.panic .assertion), Bitmap.ofBits (as ++ ss.drop pos)) := by
  intro as pos n
  generalize hk : src.len - pos = k
  induction k generalizing as pos n with
  | zero =>
    intro h
    have hdrop : ss.drop pos = [] := by
      apply List.drop_eq_nil_of_le; have := hs.len; omega
    cases n with
    | zero => simp [takeSet] at h
    | succ n => rw [Bitmap.appendFromRun, if_neg (by omega), dif_neg (by omega), hdrop, List.append_nil]
  | succ k ih =>
    intro h
    cases n with
    | zero => simp [takeSet] at h
    | succ n =>
      have hlt : pos < ss.length := by have := hs.len; omega
      have hrun : src.appendFromRun pos (n + 1) (Bitmap.ofBits as) = match src.isSet pos with
          | .error x => (.error (.panic x), Bitmap.ofBits as)
          | .ok b => match Bitmap.appendRun b (Bitmap.ofBits as) with
            | (.error x, dst) => (.error x, dst)
            | (.ok (), dst) => src.appendFromRun (pos + 1) (n + 1 - b.toNat) dst := by
        rw [Bitmap.appendFromRun, if_neg (by omega), dif_pos (by omega)]; rfl
      rw [hrun, hs.get pos hlt]
      simp only [Bitmap.appendRun_eq, Bitmap.ofBits_append]
      rw [List.drop_eq_getElem_cons hlt] at h ⊢
      simp only [takeSet, Option.map_eq_none_iff] at h
      rw [ih (as ++ [ss[pos]]) (pos + 1) _ (by omega) h, List.append_assoc]
      rfl

theorem validity_left (nd ns : Bool) (ds ss : List Bool) (pos n : Nat) (x : Fault) (v : Option Bitmap)
    (h : validityAppendFromRun (validityOfBits ns ss) pos n (validityOfBits nd ds) = (.error x, v)) :
    v = validityOfBits nd (ds ++ if nd && ns then ss.drop pos else []) := by
  cases nd <;> cases ns
  · cases h
  · simp only [validityAppendFromRun, validityOfBits] at h; cases h; rfl
  · simp only [validityAppendFromRun, validityOfBits] at h; cases h; simp [validityOfBits]
  · simp only [validityAppendFromRun, validityOfBits, if_true] at h
    have he := Bitmap.appendFromRun_ends (Bitmap.ofBits ss) pos n (Bitmap.ofBits ds)
    have hf := Bitmap.ofBits_appendFrom ds ss pos n
    rw [Bitmap.appendFrom] at hf
    cases ht : takeSet n (ss.drop pos) with
    | some q =>
      rw [ht] at hf
      rw [he.ok hf] at h
      cases h
    | none =>
      rw [bitmap_left (Bitmap.ofBits_reads ss) ds pos n ht] at h
      cases h
      simp [validityOfBits]

/-- The loop over the offsets in release builds: the offsets wrap. -/
theorem offsets_release (buf : BinaryBuffer) (items : List Bytes) (hb : buf.offsets = offsetsOf 0 items) :
    ∀ (mid a c : List Bytes) (last : Nat) (os : List Nat), items = a ++ mid ++ c →
      BinaryBuffer.appendFromOffsetsRun .release buf mid.length a.length (last % 2 ^ 32) os =
        (.ok (), os ++ (endOffsets last mid).map (· % 2 ^ 32)) := by
  intro mid
  induction mid with
  | nil => intro a c last os _; simp [BinaryBuffer.appendFromOffsetsRun, endOffsets]
  | cons x xs ih =>
    intro a c last os he
    have h1 := BinaryBuffer.itemLen_offsets .release buf items hb a.length (by rw [he]; simp)
    have h2 : items[a.length]'(by rw [he]; simp) = x := by simp [he]
    have h3 : Profile.release.add 32 (last % 2 ^ 32) x.length = .ok ((last + x.length) % 2 ^ 32) := by
      rw [Profile.add]
      split
      · rename_i h; rw [← Nat.mod_eq_of_lt h, Nat.mod_add_mod]
      · exact congrArg Except.ok (Nat.mod_add_mod _ _ _)
    have h4 := ih (a ++ [x]) c (last + x.length) (os ++ [(last + x.length) % 2 ^ 32]) (by simp [he])
    simp only [List.length_append, List.length_cons, List.length_nil, Nat.zero_add] at h4
    simp only [List.length_cons, BinaryBuffer.appendFromOffsetsRun, h1, h2, h3, h4, endOffsets, List.map_cons,
      List.append_assoc, List.singleton_append]

theorem takeWhile_self {f : Nat → Bool} : ∀ {l : List Nat}, (∀ o ∈ l, f o = true) → l.takeWhile f = l := by
  intro l
  induction l with
  | nil => intro _; rfl
  | cons x xs ih =>
    intro h
    rw [List.takeWhile_cons_of_pos (h x (by simp)), ih fun o ho => h o (by simp [ho])]

/-- The loop over the offsets in debug builds: it stops at the first offset that is too large. -/
theorem offsets_debug (buf : BinaryBuffer) (items : List Bytes) (hb : buf.offsets = offsetsOf 0 items) :
    ∀ (mid a c : List Bytes) (last : Nat) (os : List Nat), items = a ++ mid ++ c → last < 2 ^ 32 →
      BinaryBuffer.appendFromOffsetsRun .debug buf mid.length a.length last os =
        (if last + mid.flatten.length < 2 ^ 32 then .ok () else .error (.panic .overflow),
          os ++ (endOffsets last mid).takeWhile (decide <| · < 2 ^ 32)) := by
  intro mid
  induction mid with
  | nil => intro a c last os _ hl; simp [BinaryBuffer.appendFromOffsetsRun, endOffsets, hl]
  | cons x xs ih =>
    intro a c last os he hl
    have h1 := BinaryBuffer.itemLen_offsets .debug buf items hb a.length (by rw [he]; simp)
    have h2 : items[a.length]'(by rw [he]; simp) = x := by simp [he]
    have hlen : last + (x :: xs).flatten.length = last + x.length + xs.flatten.length := by
      rw [List.flatten_cons, List.length_append, Nat.add_assoc]
    by_cases h : last + x.length < 2 ^ 32
    · have h3 : Profile.debug.add 32 last x.length = .ok (last + x.length) := if_pos h
      have h4 := ih (a ++ [x]) c (last + x.length) (os ++ [last + x.length]) (by simp [he]) h
      simp only [List.length_append, List.length_cons, List.length_nil, Nat.zero_add] at h4
      rw [hlen, endOffsets, List.takeWhile_cons_of_pos (by simpa using h)]
      simp only [List.length_cons, BinaryBuffer.appendFromOffsetsRun, h1, h2, h3, h4, List.append_assoc,
        List.singleton_append]
    · have h3 : Profile.debug.add 32 last x.length = .error .overflow := if_neg h
      rw [hlen, endOffsets, List.takeWhile_cons_of_neg (by simpa using h), if_neg (by omega)]
      simp only [List.length_cons, BinaryBuffer.appendFromOffsetsRun, h1, h2, h3, List.append_nil]

theorem endOffsets_lt : ∀ (items : List Bytes) (last n : Nat), last + items.flatten.length < n →
    ∀ o ∈ endOffsets last items, o < n := by
  intro items
  induction items with
  | nil => intro last n _ o ho; cases ho
  | cons x xs ih =>
    intro last n h o ho
    rw [List.flatten_cons, List.length_append] at h
    rw [endOffsets] at ho
    rcases List.mem_cons.1 ho with rfl | ho
    · omega
    · exact ih (last + x.length) n (by omega) o ho

theorem offsetsOf_lt {items : List Bytes} {n : Nat} (h : items.flatten.length < n) : ∀ o ∈ offsetsOf 0 items, o < n := by
  intro o ho
  rcases List.mem_cons.1 ho with rfl | ho
  · omega
  · exact endOffsets_lt items 0 n (by omega) o ho

end Unwind

/-- C98 as far as it holds: a panic in `Bitmap::append` or in `append_null` of any buffer leaves everything as it was. -/
theorem C98_unchanged_partial {α : Type} :
    (∀ (m : Bitmap) (set : Bool), Bitmap.appendRun set m = match m.append set with
      | .ok m' => (.ok (), m')
      | .error x => (.error (.panic x), m)) ∧
    (∀ b : PrimitiveBuffer α, PrimitiveBuffer.appendNullRun b = match b.appendNull with
      | .ok b' => (.ok (), b')
      | .error x => (.error (.panic x), b)) ∧
    (∀ b : BinaryBuffer, BinaryBuffer.appendNullRun b = match b.appendNull with
      | .ok b' => (.ok (), b')
      | .error x => (.error (.panic x), b)) ∧
    (∀ b : BoolBuffer, BoolBuffer.appendNullRun b = match b.appendNull with
      | .ok b' => (.ok (), b')
      | .error x => (.error (.panic x), b)) := by
  refine ⟨Bitmap.appendRun_eq, fun b => ?_, fun b => ?_, fun b => ?_⟩
  · simp only [PrimitiveBuffer.appendNullRun, PrimitiveBuffer.appendNull, Unwind.appendFalse_eq]
    rcases validityAppendFalse b.validity with x | v <;> rfl
  · simp only [BinaryBuffer.appendNullRun, BinaryBuffer.appendNull, Unwind.appendFalse_eq]
    rcases validityAppendFalse b.validity with x | v <;> rfl
  · simp only [BoolBuffer.appendNullRun, BoolBuffer.appendNull, Unwind.appendFalse_eq]
    rcases validityAppendFalse b.validity with x | v <;> rfl

/-- C98 for `PrimitiveBuffer::append_from`, exactly. The call is that of `C10_append_from_returns`. If it panics, the values of
the range have been copied, unless the range is not one of the source, and all rows of the source from the position on
have been marked if both buffers are nullable and there is room for the values. So nothing has changed if and only if
the range is not one of the source, or empty. -/
theorem C98_primitive_exact {α : Type} (nd ns : Bool) (ds ss : List (Option α)) (dst src : PrimitiveBuffer α)
    (start e pos : Nat) (hd : (PrimitiveBuffer.new nd).pushAll ds = .ok dst)
    (hs : (PrimitiveBuffer.new ns).pushAll ss = .ok src) :
    (∀ dst' ret, dst.appendFrom src start e pos = .ok (dst', ret) → src.appendFromRun start e pos dst = (.ok ret, dst')) ∧
    ∀ x, dst.appendFrom src start e pos = .error x →
      ∃ left, src.appendFromRun start e pos dst = (.error (.panic x), left) ∧
      (left = dst ↔ ¬ (start ≤ e ∧ e ≤ src.len) ∨ start = e) ∧
      (start ≤ e → e ≤ src.len →
        left.values = valuesOf ds ++ ((valuesOf ss).drop start).take (e - start) ∧
        ValidityShows left.validity nd (validityOf ds ++
          if nd && ns && decide (dst.len + (e - start) < 2 ^ 32 - 1) then (validityOf ss).drop pos else [])) := by
  obtain ⟨_, rfl⟩ := PrimitiveBuffer.new_pushAll_ok hd
  obtain ⟨_, rfl⟩ := PrimitiveBuffer.new_pushAll_ok hs
  have hends := PrimitiveBuffer.appendFromRun_ends (PrimitiveBuffer.ofRows ns ss) start e pos (PrimitiveBuffer.ofRows nd ds)
  refine ⟨fun dst' ret h => hends.ok h, fun x h => ?_⟩
  have hrun : ∃ left, (PrimitiveBuffer.ofRows ns ss).appendFromRun start e pos (PrimitiveBuffer.ofRows nd ds) =
      (.error (.panic x), left) := by
    rw [h] at hends; exact hends
  obtain ⟨left, hrun⟩ := hrun
  have hval := PrimitiveBuffer.appendFromLeft_values (PrimitiveBuffer.ofRows nd ds) (PrimitiveBuffer.ofRows ns ss) start e pos
  rw [PrimitiveBuffer.appendFromLeft, hrun] at hval
  have key : start ≤ e → e ≤ (PrimitiveBuffer.ofRows ns ss).len →
      left.values = valuesOf ds ++ ((valuesOf ss).drop start).take (e - start) ∧
      left.validity = validityOfBits nd (validityOf ds ++
        if nd && ns && decide ((PrimitiveBuffer.ofRows nd ds).len + (e - start) < 2 ^ 32 - 1)
        then (validityOf ss).drop pos else []) := by
    intro h1 h2
    rw [if_pos ⟨h1, h2⟩] at hval
    refine ⟨hval, ?_⟩
    have hsl : slice (PrimitiveBuffer.ofRows ns ss).values start e =
        .ok (((PrimitiveBuffer.ofRows ns ss).values.drop start).take (e - start)) := if_pos ⟨h1, h2⟩
    have hlen : ((PrimitiveBuffer.ofRows nd ds).values ++
        ((PrimitiveBuffer.ofRows ns ss).values.drop start).take (e - start)).length =
        (PrimitiveBuffer.ofRows nd ds).len + (e - start) := by
      simp only [List.length_append, List.length_take, List.length_drop, PrimitiveBuffer.len] at h2 ⊢
      omega
    simp only [PrimitiveBuffer.appendFromRun, hsl, hlen] at hrun
    have hU : U32_MAX = 2 ^ 32 - 1 := rfl
    by_cases hr : (PrimitiveBuffer.ofRows nd ds).len + (e - start) < 2 ^ 32 - 1
    · rw [if_pos (by omega)] at hrun
      rcases hv : validityAppendFromRun (PrimitiveBuffer.ofRows ns ss).validity pos (e - start)
        (PrimitiveBuffer.ofRows nd ds).validity with ⟨r, v⟩
      rw [hv] at hrun
      simp only [Prod.mk.injEq] at hrun
      obtain ⟨rfl, rfl⟩ := hrun
      have := Unwind.validity_left nd ns (validityOf ds) (validityOf ss) pos (e - start) _ v hv
      simpa [hr] using this
    · rw [if_neg (by omega)] at hrun
      cases hrun
      rw [decide_eq_false hr, Bool.and_false]
      simp [PrimitiveBuffer.ofRows]
  refine ⟨left, hrun, ?_, fun h1 h2 => ⟨(key h1 h2).1, by rw [(key h1 h2).2]; exact validityShows_ofBits _ _⟩⟩
  constructor
  · rintro rfl
    by_cases hc : start ≤ e ∧ e ≤ (PrimitiveBuffer.ofRows ns ss).len
    · refine .inr ?_
      rw [if_pos hc] at hval
      have h3 := congrArg List.length hval
      simp only [List.length_append, List.length_take, List.length_drop, PrimitiveBuffer.len] at h3 hc
      omega
    · exact .inl hc
  · rintro (hc | rfl)
    · have hsl : slice (PrimitiveBuffer.ofRows ns ss).values start e = .error .index := if_neg hc
      simp only [PrimitiveBuffer.appendFromRun, hsl] at hrun
      exact (Prod.mk.inj hrun).2.symm
    · by_cases hc : start ≤ (PrimitiveBuffer.ofRows ns ss).len
      · have hsl : slice (PrimitiveBuffer.ofRows ns ss).values start start = .ok [] := by
          rw [slice, if_pos ⟨Nat.le_refl _, hc⟩, Nat.sub_self, List.take_zero]
        simp only [PrimitiveBuffer.appendFromRun, hsl, List.append_nil, Nat.sub_self] at hrun
        split at hrun
        · rcases hv : validityAppendFromRun (PrimitiveBuffer.ofRows ns ss).validity pos 0
            (PrimitiveBuffer.ofRows nd ds).validity with ⟨r, v⟩
          rw [hv] at hrun
          simp only [Prod.mk.injEq] at hrun
          obtain ⟨rfl, rfl⟩ := hrun
          have : v = (PrimitiveBuffer.ofRows nd ds).validity := by
            cases nd <;> cases ns
            · cases hv
            · cases hv; rfl
            · cases hv; rfl
            · have h0 := Unwind.none_left (Bitmap.ofBits (validityOf ss)) pos (Bitmap.ofBits (validityOf ds))
              change ((Bitmap.appendFromRun _ _ _ _).1, some (Bitmap.appendFromRun _ _ _ _).2) = _ at hv
              rw [h0] at hv
              cases hv
          rw [this]
        · exact (Prod.mk.inj hrun).2.symm
      · have hsl : slice (PrimitiveBuffer.ofRows ns ss).values start start = .error .index := if_neg (by
          simp only [PrimitiveBuffer.len] at hc; omega)
        simp only [PrimitiveBuffer.appendFromRun, hsl] at hrun
        exact (Prod.mk.inj hrun).2.symm

/-- C98 for `BinaryBuffer::append`, exactly: the call panics if and only if there would be more than `u32::MAX` bytes, and
then leaves the bytes of the refused value behind those of the others. -/
theorem C98_binary_append_exact (nullable : Bool) (rows : List (Option Bytes)) (b : BinaryBuffer) (value : Bytes)
    (hb : (BinaryBuffer.new nullable).pushAll rows = .ok b) :
    ((valuesOf rows).flatten.length + value.length ≤ 2 ^ 32 - 1 →
      ∃ b', b.append value = .ok b' ∧ BinaryBuffer.appendRun value b = (.ok (), b')) ∧
    ((valuesOf rows).flatten.length + value.length > 2 ^ 32 - 1 →
      b.append value = .error .expect ∧
      BinaryBuffer.appendRun value b = (.error (.panic .expect), ⟨(valuesOf rows).flatten ++ value, b.offsets, b.validity⟩)) := by
  obtain ⟨_, _, rfl⟩ := BinaryBuffer.new_pushAll_ok hb
  have hU : U32_MAX = 2 ^ 32 - 1 := rfl
  have hd : (BinaryBuffer.ofRows nullable rows).data = (valuesOf rows).flatten := rfl
  constructor
  · intro h
    have h' : ((valuesOf rows).flatten ++ value).length ≤ U32_MAX := by rw [List.length_append]; omega
    simp only [BinaryBuffer.append, BinaryBuffer.appendRun, hd, if_pos h', validityAppendTrueRun_ends]
    have : ∃ v, validityAppendTrue (BinaryBuffer.ofRows nullable rows).validity = .ok v := by
      cases nullable with
      | false => exact ⟨_, rfl⟩
      | true =>
        refine ⟨some (Bitmap.ofBits (validityOf rows ++ [true])), ?_⟩
        show ((Bitmap.ofBits (validityOf rows)).append true >>= fun m => Except.ok (some m)) = _
        rw [Bitmap.ofBits_append]; rfl
    obtain ⟨v, hv⟩ := this
    rw [hv]
    exact ⟨_, rfl, rfl⟩
  · intro h
    have h' : ¬ ((valuesOf rows).flatten ++ value).length ≤ U32_MAX := by rw [List.length_append]; omega
    simp only [BinaryBuffer.append, BinaryBuffer.appendRun, hd, if_neg h', true_and]

/-- C98: a buffer with too many bytes stays one until it is cleared. Every further `append` panics, of an empty value too,
and so does every `append_from`. -/
theorem C98_binary_stuck (p : Profile) (b : BinaryBuffer) (h : b.data.length > 2 ^ 32 - 1) :
    (∀ value, b.append value = .error .expect ∧
      (BinaryBuffer.appendRun value b).2.data.length > 2 ^ 32 - 1) ∧
    (∀ src start e pos, (∃ x, b.appendFrom p src start e pos = .error x) ∧
      (src.appendFromRun p start e pos b).2.data.length > 2 ^ 32 - 1) ∧
    b.clear.data = [] := by
  have hU : U32_MAX = 2 ^ 32 - 1 := rfl
  refine ⟨fun value => ?_, fun src start e pos => ?_, rfl⟩
  · have h' : ¬ (b.data ++ value).length ≤ U32_MAX := by rw [List.length_append]; omega
    simp only [BinaryBuffer.append, BinaryBuffer.appendRun, if_neg h', true_and]
    rw [List.length_append]; omega
  · have h' : ∀ c, ¬ U32_MAX > (b.data ++ c).length := by intro c; rw [List.length_append]; omega
    constructor
    · simp only [BinaryBuffer.appendFrom]
      rcases index src.offsets start with x | so
      · exact ⟨x, rfl⟩
      simp only [ok_bind]
      rcases index src.offsets e with x | eo
      · exact ⟨x, rfl⟩
      simp only [ok_bind]
      rcases p.sub 64 e start with x | n
      · exact ⟨x, rfl⟩
      simp only [ok_bind]
      rcases BinaryBuffer.appendFromOffsets p src (e - start) start (b.offsets.getLast?.getD 0) with x | os
      · exact ⟨x, rfl⟩
      simp only [ok_bind]
      rcases slice src.data so eo with x | c
      · exact ⟨x, rfl⟩
      simp only [ok_bind, if_neg (h' c)]
      exact ⟨_, rfl⟩
    · simp only [BinaryBuffer.appendFromRun]
      rcases index src.offsets start with x | so
      · exact h
      dsimp only
      rcases index src.offsets e with x | eo
      · exact h
      dsimp only
      rcases p.sub 64 e start with x | n
      · exact h
      dsimp only
      rcases BinaryBuffer.appendFromOffsetsRun p src (e - start) start (b.offsets.getLast?.getD 0) b.offsets with ⟨x | u, os⟩
      · exact h
      dsimp only
      rcases slice src.data so eo with x | c
      · exact h
      dsimp only
      rw [if_neg (h' c)]
      show (b.data ++ c).length > _
      rw [List.length_append]; omega

/-- C98 for `BinaryBuffer::append_from`, exactly. The call is that of `C11_append_from_returns`. If it panics, the offsets
have been pushed, the bytes copied and all rows of the source from the position on marked as far as the statements before
the panic go. -/
theorem C98_binary_exact (p : Profile) (nd ns : Bool) (ds ss : List (Option Bytes)) (dst src : BinaryBuffer)
    (start e pos : Nat) (hse : start ≤ e) (hd : (BinaryBuffer.new nd).pushAll ds = .ok dst)
    (hs : (BinaryBuffer.new ns).pushAll ss = .ok src) :
    let items := ((valuesOf ss).drop start).take (e - start)
    let all := valuesOf ds ++ items
    (∀ dst' ret, dst.appendFrom p src start e pos = .ok (dst', ret) →
      src.appendFromRun p start e pos dst = (.ok ret, dst')) ∧
    ∀ x, dst.appendFrom p src start e pos = .error x →
      ∃ left, src.appendFromRun p start e pos dst = (.error (.panic x), left) ∧
      (¬ e ≤ (valuesOf ss).length → left = dst) ∧
      (e ≤ (valuesOf ss).length →
        (all.flatten.length < 2 ^ 32 ∨ p = .release →
          left.data = all.flatten ∧ left.offsets = (offsetsOf 0 all).map (· % 2 ^ 32)) ∧
        (¬ all.flatten.length < 2 ^ 32 ∧ p = .debug →
          left.data = (valuesOf ds).flatten ∧ left.offsets = (offsetsOf 0 all).takeWhile (decide <| · < 2 ^ 32)) ∧
        ValidityShows left.validity nd (validityOf ds ++
          if nd && ns && decide (all.flatten.length < 2 ^ 32 - 1) then (validityOf ss).drop pos else [])) := by
  obtain ⟨_, hdl, rfl⟩ := BinaryBuffer.new_pushAll_ok hd
  obtain ⟨_, _, rfl⟩ := BinaryBuffer.new_pushAll_ok hs
  intro items all
  have hends := BinaryBuffer.appendFromRun_ends p (BinaryBuffer.ofRows ns ss) start e pos (BinaryBuffer.ofRows nd ds)
  refine ⟨fun dst' ret h => hends.ok h, fun x h => ?_⟩
  have hrun : ∃ left, (BinaryBuffer.ofRows ns ss).appendFromRun p start e pos (BinaryBuffer.ofRows nd ds) =
      (.error (.panic x), left) := by
    rw [h] at hends; exact hends
  obtain ⟨left, hrun⟩ := hrun
  refine ⟨left, hrun, ?_⟩
  have hU : U32_MAX = 2 ^ 32 - 1 := rfl
  have ho : (BinaryBuffer.ofRows ns ss).offsets = offsetsOf 0 (valuesOf ss) := rfl
  have hod : (BinaryBuffer.ofRows nd ds).offsets = offsetsOf 0 (valuesOf ds) := rfl
  by_cases hen : e ≤ (valuesOf ss).length
  case neg =>
    refine ⟨fun _ => ?_, fun h => absurd h hen⟩
    have hidx : index (offsetsOf 0 (valuesOf ss)) e = .error .index := by
      simp only [index]; rw [List.getElem?_eq_none (by simp; omega)]
    simp only [BinaryBuffer.appendFromRun, ho, hidx] at hrun
    rcases hi : index (offsetsOf 0 (valuesOf ss)) start with x | so <;> rw [hi] at hrun <;>
      exact (Prod.mk.inj hrun).2.symm
  refine ⟨fun h => absurd hen h, fun _ => ?_⟩
  have hx := offsetsOf_get 0 (valuesOf ss) start (by omega)
  have hy := offsetsOf_get 0 (valuesOf ss) e hen
  have htake : (valuesOf ss).take e = (valuesOf ss).take start ++ items := by
    rw [← List.take_append_drop start ((valuesOf ss).take e), List.take_take, List.drop_take]
    congr 2; omega
  have hsplit : valuesOf ss = (valuesOf ss).take start ++ items ++ (valuesOf ss).drop e := by
    rw [← htake, List.take_append_drop]
  have hsl := slice_flatten_mid ((valuesOf ss).take start) items ((valuesOf ss).drop e)
  rw [← hsplit, ← htake] at hsl
  have hl : (offsetsOf 0 (valuesOf ds)).getLast? = some (valuesOf ds).flatten.length := by
    rw [offsetsOf_getLast]
    simp
  have hk : items.length = e - start := by simp [items]; omega
  have hk' : ((valuesOf ss).take start).length = start := by simp; omega
  have hdl' : (valuesOf ds).flatten.length < 2 ^ 32 := by
    have : (valuesOf ds).flatten.length ≤ U32_MAX := hdl
    omega
  have hall : all.flatten.length = (valuesOf ds).flatten.length + items.flatten.length := by
    rw [List.flatten_append, List.length_append]
  have hdata : (BinaryBuffer.ofRows ns ss).data = (valuesOf ss).flatten := rfl
  have hdd : (BinaryBuffer.ofRows nd ds).data = (valuesOf ds).flatten := rfl
  have hos : offsetsOf 0 all = offsetsOf 0 (valuesOf ds) ++ endOffsets (valuesOf ds).flatten.length items := by
    rw [offsetsOf_append, Nat.zero_add]
  have hsame : ∀ l : List Nat, (∀ o ∈ l, o < 2 ^ 32) → l.map (· % 2 ^ 32) = l := by
    intro l h
    have := List.map_congr_left (f := (· % 2 ^ 32)) (g := id) (fun o ho => Nat.mod_eq_of_lt (h o ho))
    rw [this, List.map_id]
  have hmap : (offsetsOf 0 all).map (· % 2 ^ 32) = offsetsOf 0 (valuesOf ds) ++
      (endOffsets (valuesOf ds).flatten.length items).map (· % 2 ^ 32) := by
    rw [hos, List.map_append, hsame _ (Unwind.offsetsOf_lt hdl')]
  have hwhile : (offsetsOf 0 all).takeWhile (decide <| · < 2 ^ 32) = offsetsOf 0 (valuesOf ds) ++
      (endOffsets (valuesOf ds).flatten.length items).takeWhile (decide <| · < 2 ^ 32) := by
    rw [hos, List.takeWhile_append_of_pos (by simpa using Unwind.offsetsOf_lt hdl')]
  simp only [BinaryBuffer.appendFromRun, index, ho, hx, hy, Profile.sub_ok p hse, hl, hod, hdata, hdd,
    Option.getD_some, Nat.zero_add, hsl] at hrun
  -- the case in which the bytes are copied
  have hcopied : BinaryBuffer.appendFromOffsetsRun p (BinaryBuffer.ofRows ns ss) (e - start) start
        (valuesOf ds).flatten.length (offsetsOf 0 (valuesOf ds)) = (.ok (), (offsetsOf 0 all).map (· % 2 ^ 32)) →
      left.data = all.flatten ∧ left.offsets = (offsetsOf 0 all).map (· % 2 ^ 32) ∧
      ValidityShows left.validity nd (validityOf ds ++
        if nd && ns && decide (all.flatten.length < 2 ^ 32 - 1) then (validityOf ss).drop pos else []) := by
    intro hr
    rw [hr] at hrun
    simp only [← List.flatten_append] at hrun
    change (if U32_MAX > all.flatten.length then _ else _) = _ at hrun
    by_cases hroom : all.flatten.length < 2 ^ 32 - 1
    · rw [if_pos (by omega)] at hrun
      rcases hv : validityAppendFromRun (BinaryBuffer.ofRows ns ss).validity pos (e - start)
        (BinaryBuffer.ofRows nd ds).validity with ⟨r, v⟩
      rw [hv] at hrun
      simp only [Prod.mk.injEq] at hrun
      obtain ⟨rfl, rfl⟩ := hrun
      have := Unwind.validity_left nd ns (validityOf ds) (validityOf ss) pos (e - start) _ v hv
      refine ⟨rfl, rfl, ?_⟩
      rw [decide_eq_true hroom, Bool.and_true]
      show ValidityShows v _ _
      rw [this]
      exact validityShows_ofBits _ _
    · rw [if_neg (by omega)] at hrun
      cases hrun
      refine ⟨rfl, rfl, ?_⟩
      rw [decide_eq_false hroom, Bool.and_false, if_neg (by simp), List.append_nil]
      exact validityShows_ofBits _ _
  cases p with
  | release =>
    have h1 := Unwind.offsets_release (BinaryBuffer.ofRows ns ss) _ ho items _ _ (valuesOf ds).flatten.length
      (offsetsOf 0 (valuesOf ds)) hsplit
    rw [hk, hk', Nat.mod_eq_of_lt hdl', ← hmap] at h1
    obtain ⟨h2, h3, h4⟩ := hcopied h1
    exact ⟨fun _ => ⟨h2, h3⟩, fun h => (nomatch h.2), h4⟩
  | debug =>
    have h1 := Unwind.offsets_debug (BinaryBuffer.ofRows ns ss) _ ho items _ _ (valuesOf ds).flatten.length
      (offsetsOf 0 (valuesOf ds)) hsplit hdl'
    rw [hk, hk', ← hwhile, ← hall] at h1
    by_cases hfit : all.flatten.length < 2 ^ 32
    · have hlt := Unwind.offsetsOf_lt hfit
      rw [if_pos hfit, Unwind.takeWhile_self (by simpa using hlt), ← hsame _ hlt] at h1
      obtain ⟨h2, h3, h4⟩ := hcopied h1
      exact ⟨fun _ => ⟨h2, h3⟩, fun h => absurd hfit h.1, h4⟩
    · rw [if_neg hfit] at h1
      rw [h1] at hrun
      cases hrun
      refine ⟨fun h => absurd (h.resolve_right (by simp)) hfit, fun _ => ⟨rfl, rfl⟩, ?_⟩
      rw [decide_eq_false (by omega), Bool.and_false, if_neg (by simp), List.append_nil]
      exact validityShows_ofBits _ _

/-- C98 fails. `append_from` of a nullable buffer that holds 1, with a buffer that is not nullable and holds 2, panics; the
buffer then holds the values 1 and 2 but has one row, and `has_nulls()` panics (in release builds: says that there are
nulls). `BinaryBuffer::append` of one byte too many leaves the byte. -/
theorem C98_unchanged_violated :
    (∃ (dst src left : PrimitiveBuffer Int32), (PrimitiveBuffer.new true).pushAll [some 1] = .ok dst ∧
      (PrimitiveBuffer.new false).pushAll [some 2] = .ok src ∧
      src.appendFromRun 0 1 0 dst = (.error (.panic .assertion), left) ∧
      left.values = [1, 2] ∧ left.numValues = 1 ∧ left.len = 2 ∧
      dst.hasNulls .debug = .ok false ∧ left.hasNulls .debug = .error .overflow ∧ left.hasNulls .release = .ok true) ∧
    (∀ (rows : List (Option Bytes)) (b : BinaryBuffer), (BinaryBuffer.new true).pushAll rows = .ok b →
      (valuesOf rows).flatten.length = 2 ^ 32 - 1 → ∀ v : UInt8,
      ∃ left, BinaryBuffer.appendRun [v] b = (.error (.panic .expect), left) ∧ left.data.length = 2 ^ 32 ∧
        left.offsets = b.offsets ∧ ∀ value, left.append value = .error .expect) := by
  constructor
  · have hd : (PrimitiveBuffer.new true).pushAll [some (1 : Int32)] = .ok (PrimitiveBuffer.ofRows true [some 1]) :=
      PrimitiveBuffer.new_pushAll _ _ (.inl rfl)
    have hs : (PrimitiveBuffer.new false).pushAll [some (2 : Int32)] = .ok (PrimitiveBuffer.ofRows false [some 2]) :=
      PrimitiveBuffer.new_pushAll _ _ (.inr (by decide +kernel))
    refine ⟨_, _, ⟨[1, 2], (PrimitiveBuffer.ofRows true [some (1 : Int32)]).validity⟩, hd, hs, ?_, rfl, ?_, rfl, ?_, ?_, ?_⟩
    · have hsl : slice (PrimitiveBuffer.ofRows false [some (2 : Int32)]).values 0 1 = .ok [2] := rfl
      simp only [PrimitiveBuffer.appendFromRun, hsl]
      rw [if_pos (by decide)]
      rfl
    all_goals decide +kernel
  · intro rows b hb hlen v
    have h := (C98_binary_append_exact true rows b [v] hb).2 (by rw [hlen]; simp)
    refine ⟨_, h.2, ?_, rfl, fun value => ?_⟩
    · show ((valuesOf rows).flatten ++ [v]).length = _
      rw [List.length_append, hlen, List.length_singleton]
    · exact ((C98_binary_stuck .debug _ (by
        show ((valuesOf rows).flatten ++ [v]).length > _
        rw [List.length_append, hlen, List.length_singleton]; omega)).1 value).1

section
variable {α : Type} [Element α] {S : Type}

/-- C98 in the encoder: values refused are written all the same. An encoder that is not nullable refuses a nullable buffer
with a panic; what it holds afterwards is what it would hold if it had been given the values of that buffer without the
nulls. So the rows that the next calls of `encode` and `flush` write include the values that were refused, shifted to the
row numbers after the rows held back. -/
theorem C98_refused_values (p : Profile) (k : Sink S) (b : PrimitiveBuffer α) (e : PrimitiveEnc.Encoder α) (s : S)
    (he : e.remaining.validity = none) (hb : b.validity.isSome = true) (hne : 0 < b.len)
    (hB : e.minBlockSize < 2 ^ 64) (hsmall : (e.remaining.len + b.len) * Element.size α < e.minBlockSize)
    (hroom : e.remaining.len + b.len < 2 ^ 32 - 1) :
    ∃ e', PrimitiveEnc.encode p k b (e, s) = (.error (.panic .expect), (e', s)) ∧
      PrimitiveEnc.encode p k ⟨b.values, none⟩ (e, s) = (.ok (), (e', s)) ∧
      e'.remaining.values = e.remaining.values ++ b.values := by
  have hsz := Element.size_eq (α := α)
  obtain ⟨bv, hbv⟩ := Option.isSome_iff_exists.1 hb
  have hU : U32_MAX = 2 ^ 32 - 1 := rfl
  have hslice : slice b.values 0 b.len = .ok b.values := by
    rw [slice, if_pos ⟨Nat.zero_le _, Nat.le_refl _⟩]
    simp [PrimitiveBuffer.len]
  have hlen : U32_MAX > (e.remaining.values ++ b.values).length := by
    rw [List.length_append]; simp only [PrimitiveBuffer.len] at hroom; omega
  have hno : ∀ stop, stop = b.len → e.remaining.appendFrom b 0 stop 0 = .error .expect ∧
      e.remaining.appendFromLeft b 0 stop 0 = ⟨e.remaining.values ++ b.values, none⟩ ∧
      e.remaining.appendFrom ⟨b.values, none⟩ 0 stop 0 = .ok (⟨e.remaining.values ++ b.values, none⟩, b.len) := by
    rintro _ rfl
    simp only [PrimitiveBuffer.appendFrom, PrimitiveBuffer.appendFromLeft, PrimitiveBuffer.appendFromRun, hslice, ok_bind,
      if_pos hlen, he, hbv]
    exact ⟨rfl, rfl, rfl⟩
  have hchunk : ∀ m, m < 2 ^ 64 → b.len * Element.size α < m → ∀ v,
      PrimitiveEnc.chunk p (⟨b.values, v⟩ : PrimitiveBuffer α) 0 m = .ok b.len := by
    intro m hm hlt v
    have := PrimitiveEnc.perBlock_le (α := α) hm
    rw [PrimitiveEnc.chunk_ok p _ 0 m (by omega)]
    have := (PrimitiveEnc.lt_perBlock_iff (α := α) (m := m) (n := b.len) (by omega)).1 hlt
    exact congrArg Except.ok (Nat.min_eq_right (by simp only [PrimitiveBuffer.len] at this ⊢; omega))
  obtain ⟨h1, h2, h3⟩ := hno b.len rfl
  refine ⟨{ e with remaining := ⟨e.remaining.values ++ b.values, none⟩ }, ?_, ?_, rfl⟩
  all_goals simp only [PrimitiveEnc.encode, PrimitiveEnc.encodeFuel, Run.bind_apply, Run.get_apply]
  · by_cases hl : e.remaining.len > 0
    · rw [if_pos hl]
      have hr : e.remaining.len * Element.size α ≤ e.minBlockSize := by
        rw [Nat.add_mul] at hsmall; omega
      have hc := hchunk (e.minBlockSize - e.remaining.len * Element.size α) (by omega)
        (by rw [Nat.add_mul] at hsmall; omega) b.validity
      simp only [Run.bind_apply, p.sub_ok hr, Run.lift_ok, hc, h1, h2, Run.lift_left]
      rfl
    · rw [if_neg hl, PrimitiveEnc.encodeLoop, if_pos hne]
      have h0 : e.remaining.len = 0 := by omega
      rw [h0, Nat.zero_add] at hsmall
      have hc := hchunk e.minBlockSize hB hsmall b.validity
      simp only [Run.bind_apply, Run.get_apply, hc, Run.lift_ok, p.sub_ok (Nat.zero_le _), Nat.sub_zero]
      rw [if_pos hsmall]
      simp only [Run.bind_apply, h1, h2, Run.lift_left]
      rfl
  · by_cases hl : e.remaining.len > 0
    · rw [if_pos hl]
      have hr : e.remaining.len * Element.size α ≤ e.minBlockSize := by
        rw [Nat.add_mul] at hsmall; omega
      have hc := hchunk (e.minBlockSize - e.remaining.len * Element.size α) (by omega)
        (by rw [Nat.add_mul] at hsmall; omega) none
      simp only [Run.bind_apply, p.sub_ok hr, Run.lift_ok, hc, h3, Run.set_apply]
      rw [if_pos]
      · rfl
      · simp only [PrimitiveBuffer.len, List.length_append] at hsmall ⊢
        rcases hsz with h | h <;> rw [h] at hsmall <;> omega
    · rw [if_neg hl, PrimitiveEnc.encodeLoop, if_pos (show 0 < (⟨b.values, none⟩ : PrimitiveBuffer α).len from hne)]
      have h0 : e.remaining.len = 0 := by omega
      rw [h0, Nat.zero_add] at hsmall
      have hc := hchunk e.minBlockSize hB hsmall none
      simp only [Run.bind_apply, Run.get_apply, hc, Run.lift_ok, p.sub_ok (Nat.zero_le _), Nat.sub_zero]
      rw [if_pos hsmall]
      simp only [Run.bind_apply, h3, Run.lift_ok, Run.set_apply]

/-- C98 in the encoder: a nullable encoder that holds more values than rows marked as values (as after a panic of
`append_from` with a buffer that is not nullable) panics in `flush`, writes nothing and stays as it is. -/
theorem C98_refused_flush (p : Profile) (k : Sink S) (e : PrimitiveEnc.Encoder α) (s : S) (bm : Bitmap) (bits : List Bool)
    (he : e.remaining.validity = some bm) (hr : bm.Reads bits) (hc : bits.count true < e.remaining.len) :
    ∃ x, PrimitiveEnc.flush p k (e, s) = (.error (.panic x), (e, s)) := by
  have hpos : e.remaining.len > 0 := by omega
  simp only [PrimitiveEnc.flush, Run.bind_apply, Run.get_apply]
  rw [if_pos hpos]
  have hv : PrimitiveEnc.encodeValidity p e.remaining.validity 0 e.remaining.len e.bitmapEncoder = .error .assertion := by
    rw [he, PrimitiveEnc.encodeValidity, Rle.Encoder.putFrom_eq p hr _ (Rle.Encoder.clear_safe _), List.drop_zero,
      (takeSet_none _ _).2 hc]
    rfl
  have : ∃ x, PrimitiveEnc.encodePrimitiveBuffer p e.remaining 0 e.remaining.len 0 e.bitmapEncoder = .error x := by
    rw [PrimitiveEnc.encodePrimitiveBuffer]
    simp only [p.sub_ok (Nat.zero_le _), ok_bind, Nat.sub_zero, hv]
    rcases Varint.putVarint [] (Element.size α * e.remaining.len) with x | d
    · exact ⟨x, rfl⟩
    rcases slice e.remaining.values 0 e.remaining.len with x | c
    · exact ⟨x, rfl⟩
    exact ⟨_, rfl⟩
  obtain ⟨x, hx⟩ := this
  refine ⟨x, ?_⟩
  simp only [PrimitiveEnc.writeRemaining, PrimitiveEnc.writeRange, Run.bind_apply, Run.get_apply, hx, Run.lift_error]

end

/-! ## Examples -/

/-- A nullable buffer refused by an encoder that is not nullable; its value is in the block that `flush` writes. -/
example :
    let e : PrimitiveEnc.Encoder Int32 := PrimitiveEnc.Encoder.new 100 false
    let b := PrimitiveBuffer.ofRows true [none, some 7]
    let refused := PrimitiveEnc.encode .debug recorder b (e, [])
    refused.1 = .error (.panic .expect) ∧
    (PrimitiveEnc.flush .debug recorder refused.2).2.2 = [(0, [4, 7, 0, 0, 0])] := by decide +kernel

/-- The other way round `flush` panics. -/
example :
    let e : PrimitiveEnc.Encoder Int32 := PrimitiveEnc.Encoder.new 100 true
    let b := PrimitiveBuffer.ofRows false [some 7]
    let refused := PrimitiveEnc.encode .debug recorder b (e, [])
    refused.1 = .error (.panic .assertion) ∧
    (PrimitiveEnc.flush .debug recorder refused.2).1 = .error (.panic .assertion) ∧
    (PrimitiveEnc.flush .debug recorder refused.2).2.2 = [] := by decide +kernel

/-- `append_from` runs out of rows: the value and both rows of the source are left in the buffer. -/
example :
    let dst := BinaryBuffer.ofRows true [some [1]]
    let src := BinaryBuffer.ofRows true [some [2, 3], none]
    let left := (src.appendFromRun .debug 0 1 1 dst).2
    (src.appendFromRun .debug 0 1 1 dst).1 = .error (.panic .assertion) ∧
    left.data = [1, 2, 3] ∧ left.offsets = [0, 1, 3] ∧ left.validity.map (·.len) = some 2 := by decide +kernel

end Meerkat
