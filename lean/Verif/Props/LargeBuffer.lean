import Verif.Props.BinaryCompletes
import Verif.Props.EncoderSink
import Verif.Proofs.BinarySizes
import Verif.Proofs.BinaryVolume

set_option autoImplicit false

/-!
# C33 fails for every large buffer

The position at which the loop of the binary encoder goes on after a block is a number of items counted from the start of that
block. So every block must need more items than lie before it, and the values of a buffer that is encoded at all must
get smaller as fast as their number grows. No more than 128 items between two such positions are allowed, and a block
that needs twice as many items as lie before it is due after at most as many blocks as a block has bytes. So there
is a limit for the number of values of a buffer and one for their bytes. With the block size of segment_writer.rs these are
33024 values and 8320 bytes.
-/

namespace Meerkat.Spec

/-- The bytes of the values, where no value counts for more than `m`. -/
def cappedBytes (m : Nat) (vs : List Bytes) : Nat := (vs.map (fun v => min v.length m)).sum

end Meerkat.Spec

namespace Meerkat
section
open Spec BinaryEnc

namespace LargeBuffer

theorem capped_append (m : Nat) (a b : List Bytes) : cappedBytes m (a ++ b) = cappedBytes m a + cappedBytes m b := by
  simp [cappedBytes]

theorem capped_le (m : Nat) (a : List Bytes) : cappedBytes m a ≤ a.flatten.length := by
  induction a with
  | nil => simp [cappedBytes]
  | cons v vs ih =>
    simp only [cappedBytes, List.map_cons, List.sum_cons, List.flatten_cons, List.length_append] at ih ⊢
    omega

theorem capped_eq (m : Nat) (a : List Bytes) (h : ∀ v ∈ a, v.length ≤ m) : cappedBytes m a = a.flatten.length := by
  induction a with
  | nil => simp [cappedBytes]
  | cons v vs ih =>
    have h1 := h v (by simp)
    have h2 := ih (fun w hw => h w (by simp [hw]))
    simp only [cappedBytes, List.map_cons, List.sum_cons, List.flatten_cons, List.length_append] at h2 ⊢
    omega

/-- The bytes of the first `x` values. -/
def upto (m : Nat) (vs : List Bytes) (x : Nat) : Nat := cappedBytes m (vs.take x)

theorem upto_zero (m : Nat) (vs : List Bytes) : upto m vs 0 = 0 := by simp [upto, cappedBytes]

theorem upto_add (m : Nat) (vs : List Bytes) (x y : Nat) :
    upto m vs (x + y) = upto m vs x + cappedBytes m ((vs.drop x).take y) := by
  rw [upto, List.take_add, capped_append, ← upto]

theorem upto_mono (m : Nat) (vs : List Bytes) {x y : Nat} (h : x ≤ y) : upto m vs x ≤ upto m vs y := by
  obtain ⟨k, rfl⟩ := Nat.exists_eq_add_of_le h
  rw [upto_add]; omega

/-- The values of one block have fewer than two blocks of bytes. -/
theorem fill_capped {k m j : Nat} {l : List Bytes} (hf : fill k l = some j) (hk : k ≤ m) (hm : 0 < m) :
    cappedBytes m (l.take j) ≤ 2 * m := by
  obtain ⟨h1, h2, h3⟩ := fill_some hf
  cases j with
  | zero => simp [cappedBytes]
  | succ j =>
    have h4 := capped_le m (l.take j)
    have h5 := h3 j (by omega)
    have h6 : cappedBytes m (l.take (j + 1)) ≤ cappedBytes m (l.take j) + m := by
      rw [List.take_add, capped_append]
      have : cappedBytes m ((l.drop j).take 1) ≤ m := by
        cases l.drop j with
        | nil => simp [cappedBytes]
        | cons v vs => simp [cappedBytes]; omega
      omega
    omega

theorem log2_double {a y : Nat} (ha : 0 < a) (h : 2 * a ≤ y) : a.log2 + 1 ≤ y.log2 := by
  rw [Nat.le_log2 (by omega), Nat.pow_succ]
  have := Nat.log2_self_le (n := a) (by omega)
  omega

theorem log2_mono {a y : Nat} (h : a ≤ y) : a.log2 ≤ y.log2 := by
  rcases Nat.eq_zero_or_pos a with rfl | ha
  · simp
  · rw [Nat.le_log2 (by omega)]
    exact Nat.le_trans (Nat.log2_self_le (by omega)) h

/-- The invariant of the loop, which has come from `a` to `b`: the block that starts at `a` has `b` values. -/
structure Run (m : Nat) (vs : List Bytes) (a b : Nat) : Prop where
  lt : a < b
  block : upto m vs (a + b) ≤ upto m vs a + 2 * m
  all : ∀ y, y ≤ a + b → upto m vs y ≤ 4 * m * (y.log2 + 1)

theorem Run.step {m : Nat} {vs : List Bytes} {a b c : Nat} (h : Run m vs a b) (hm : 0 < m)
    (hf : fill m (vs.drop b) = some c) (hbc : b < c) : Run m vs b c := by
  have hblock : upto m vs (b + c) ≤ upto m vs b + 2 * m := by
    rw [upto_add]
    have := fill_capped hf (Nat.le_refl m) hm
    omega
  refine ⟨hbc, hblock, fun y hy => ?_⟩
  by_cases hle : y ≤ a + b
  · exact h.all y hle
  · have h1 : upto m vs y ≤ upto m vs (b + c) := upto_mono m vs hy
    have h2 : upto m vs b ≤ upto m vs (a + b) := upto_mono m vs (by omega)
    have h3 := h.block
    have hlt := h.lt
    have h4 : upto m vs a + 4 * m ≤ 4 * m * (y.log2 + 1) := by
      rcases Nat.eq_zero_or_pos a with rfl | ha
      · rw [upto_zero, Nat.mul_add]; omega
      · have h5 := h.all a (by omega)
        have h6 := log2_double ha (show 2 * a ≤ y by omega)
        have h7 : 4 * m * (a.log2 + 1) ≤ 4 * m * y.log2 := Nat.mul_le_mul_left _ h6
        rw [Nat.mul_add (4 * m) y.log2 1]
        omega
    omega

theorem Run.first {k m : Nat} {vs : List Bytes} {c : Nat} (hm : 0 < m) (hk : k ≤ m)
    (hf : fill k vs = some c) (hc : 0 < c) : Run m vs 0 c := by
  have hb : upto m vs (0 + c) ≤ upto m vs 0 + 2 * m := by
    rw [upto_zero, Nat.zero_add]
    have := fill_capped hf hk hm
    rw [upto]; omega
  refine ⟨hc, hb, fun y hy => ?_⟩
  have h1 := upto_mono m vs hy
  rw [upto_zero] at hb
  have : 4 * m ≤ 4 * m * (y.log2 + 1) := Nat.le_mul_of_pos_right _ (by omega)
  omega

/-- What is left behind has less than a block. -/
theorem rest_small {m : Nat} {vs : List Bytes} {b : Nat} (hf : fill m (vs.drop b) = none) :
    cappedBytes m vs < upto m vs b + m := by
  have h1 := fill_none hf
  have h2 := capped_le m (vs.drop b)
  have h3 := capped_append m (vs.take b) (vs.drop b)
  rw [List.take_append_drop] at h3
  rw [upto]; omega

theorem loop_run {m : Nat} {vs : List Bytes} (hm : 0 < m) (n : Nat) : ∀ (a b q : Nat), Run m vs a b →
    loopEnd m vs n b = some q → cappedBytes m vs < 4 * m * (q.log2 + 1) + m := by
  induction n with
  | zero => intro a b q _ h; simp [loopEnd] at h
  | succ n ih =>
    intro a b q hr h
    rw [loopEnd] at h
    cases hf : fill m (vs.drop b) with
    | none =>
      rw [hf] at h
      obtain rfl : b = q := Option.some.inj h
      have h1 := rest_small hf
      have h2 := hr.all b (by omega)
      omega
    | some c =>
      rw [hf] at h
      simp only at h
      split at h
      · rename_i hc
        exact ih b c q (hr.step hm hf hc.1) h
      · cases h

theorem loop_zero {m : Nat} {vs : List Bytes} (hm : 0 < m) {n q : Nat} (h : loopEnd m vs n 0 = some q) :
    cappedBytes m vs < 4 * m * (q.log2 + 1) + m := by
  cases n with
  | zero => simp [loopEnd] at h
  | succ n =>
    rw [loopEnd, List.drop_zero] at h
    cases hf : fill m vs with
    | none =>
      have h1 := rest_small (b := 0) (by rw [List.drop_zero]; exact hf)
      rw [upto_zero] at h1
      omega
    | some c =>
      rw [hf] at h
      simp only at h
      split at h
      · rename_i hc
        exact loop_run hm n 0 c q (Run.first hm (Nat.le_refl m) hf hc.1) h
      · cases h

/-! ## The positions of the loop -/

/-- The positions `pos 0`, … `pos N` of a loop that comes to an end. -/
structure Trace (m : Nat) (vs : List Bytes) (N : Nat) (pos : Nat → Nat) : Prop where
  block : ∀ k, k < N → fill m (vs.drop (pos k)) = some (pos (k + 1))
  lt : ∀ k, k < N → pos k < pos (k + 1)
  few : ∀ k, k < N → pos (k + 1) - pos k ≤ 128

theorem loop_trace {m : Nat} {vs : List Bytes} (n : Nat) : ∀ b q : Nat, loopEnd m vs n b = some q →
    ∃ N pos, pos 0 = b ∧ pos N = q ∧ Trace m vs N pos := by
  induction n with
  | zero => intro b q h; simp [loopEnd] at h
  | succ n ih =>
    intro b q h
    rw [loopEnd] at h
    cases hf : fill m (vs.drop b) with
    | none =>
      rw [hf] at h
      exact ⟨0, fun _ => b, rfl, Option.some.inj h, fun k hk => by omega, fun k hk => by omega, fun k hk => by omega⟩
    | some c =>
      rw [hf] at h
      simp only at h
      split at h
      · rename_i hc
        obtain ⟨N, pos, h0, hN, ht⟩ := ih c q h
        refine ⟨N + 1, fun k => if k = 0 then b else pos (k - 1), rfl, by simpa using hN, fun k hk => ?_, fun k hk => ?_,
          fun k hk => ?_⟩
        · cases k with
          | zero => simp [h0, hf]
          | succ k => simpa using ht.block k (by omega)
        · cases k with
          | zero => simp [h0, hc.1]
          | succ k => simpa using ht.lt k (by omega)
        · cases k with
          | zero => simpa [h0] using hc.2
          | succ k => simpa using ht.few k (by omega)
      · cases h

namespace Trace
variable {m : Nat} {vs : List Bytes} {N : Nat} {pos : Nat → Nat}

/-- A block has at most as many values that are not empty as bytes. -/
theorem filled (h : Trace m vs N pos) (hm : 0 < m) {k : Nat} (hk : k < N) :
    upto 1 vs (pos k + pos (k + 1)) ≤ upto 1 vs (pos k) + m := by
  rw [upto_add]
  have hf := h.block k hk
  obtain ⟨h1, h2, h3⟩ := fill_some hf
  obtain ⟨j, hj⟩ : ∃ j, pos (k + 1) = j + 1 := ⟨pos (k + 1) - 1, by have := fill_pos hf hm; omega⟩
  rw [hj] at h3 ⊢
  have h4 := h3 j (by omega)
  have h5 := capped_le 1 ((vs.drop (pos k)).take j)
  have h6 : cappedBytes 1 (((vs.drop (pos k)).drop j).take 1) ≤ 1 := by
    cases (vs.drop (pos k)).drop j with
    | nil => simp [cappedBytes]
    | cons v vs => simp [cappedBytes]; omega
  rw [List.take_add, capped_append]
  omega

/-- The last value of a block is not empty. -/
theorem last (h : Trace m vs N pos) (hm : 0 < m) {k : Nat} (hk : k < N) :
    upto 1 vs (pos k + pos (k + 1)) = upto 1 vs (pos k + pos (k + 1) - 1) + 1 := by
  have hf := h.block k hk
  have hj := fill_pos hf hm
  obtain ⟨v, hv, hpos⟩ := fill_last hf hm
  rw [List.getElem?_drop] at hv
  obtain ⟨hlt, hget⟩ := List.getElem?_eq_some_iff.mp hv
  have hx : pos k + pos (k + 1) = pos k + (pos (k + 1) - 1) + 1 := by omega
  rw [hx, upto_add, Nat.add_sub_cancel]
  congr 1
  rw [List.drop_eq_getElem_cons hlt, hget]
  simp [cappedBytes]
  omega

theorem first_at (h : Trace m vs N pos) (hm : 0 < m) {k x : Nat} (hk : k < N)
    (hx : upto 1 vs (pos k + pos (k + 1)) ≤ upto 1 vs x) : pos k + pos (k + 1) ≤ x := by
  apply Nat.le_of_not_lt
  intro hlt
  have h1 := h.last hm hk
  have h2 := upto_mono 1 vs (show x ≤ pos k + pos (k + 1) - 1 by omega)
  omega

theorem more (h : Trace m vs N pos) (hm : 0 < m) {k : Nat} (i : Nat) : k + i < N →
    upto 1 vs (pos k + pos (k + 1)) + i ≤ upto 1 vs (pos (k + i) + pos (k + i + 1)) := by
  induction i with
  | zero => intro _; exact Nat.le_refl _
  | succ i ih =>
    intro hk
    have h1 := ih (by omega)
    have h2 := h.last hm (k := k + (i + 1)) (by omega)
    have h3 := h.lt (k + i) (by omega)
    have h4 := h.lt (k + i + 1) (by omega)
    rw [show k + i + 1 = k + (i + 1) from rfl] at h1 h3 h4
    have h5 := upto_mono 1 vs (show pos (k + i) + pos (k + (i + 1)) ≤ pos (k + (i + 1)) + pos (k + (i + 1) + 1) - 1 by omega)
    omega

/-- After `m` blocks the position has doubled. -/
theorem doubles (h : Trace m vs N pos) (hm : 0 < m) {k : Nat} (hk : k + m < N) :
    pos k + pos (k + 1) ≤ pos (k + m) := by
  have h1 := h.more hm m hk
  have h2 := h.filled hm hk
  exact h.first_at hm (by omega) (by omega)

theorem slow (h : Trace m vs N pos) {k : Nat} (i : Nat) : k + i ≤ N → pos (k + i) ≤ pos k + 128 * i := by
  induction i with
  | zero => intro _; exact Nat.le_refl _
  | succ i ih =>
    intro hk
    have h1 := ih (by omega)
    have h2 := h.few (k + i) (by omega)
    rw [show k + i + 1 = k + (i + 1) from rfl] at h2
    omega

theorem final (h : Trace m vs N pos) (hm : 0 < m) (h0 : pos 0 ≤ 128) : pos N ≤ 256 * m + 128 := by
  by_cases hN : N ≤ m
  · have h1 := h.slow (k := 0) N (by omega)
    rw [Nat.zero_add] at h1
    omega
  · obtain ⟨k, rfl⟩ : ∃ k, N = k + m + 1 := ⟨N - m - 1, by omega⟩
    have h1 := h.doubles hm (k := k) (by omega)
    have h2 := h.slow (k := k) m (by omega)
    have h3 := h.slow (k := k) (m + 1) (by omega)
    have h4 := h.lt k (by omega)
    rw [← Nat.add_assoc] at h3
    omega

end Trace

/-! ## The calls -/

/-- What a call that returns says about its buffer. -/
theorem heldAfter_small {m : Nat} (hm : 0 < m) {held vs held' : List Bytes} (h : heldAfter m held vs = some held') :
    cappedBytes m vs < 4 * m * ((256 * m + 128).log2 + 1) + m ∧ vs.length ≤ held'.length + (256 * m + 128) := by
  have key : ∀ q, q ≤ 256 * m + 128 → cappedBytes m vs < 4 * m * (q.log2 + 1) + m →
      cappedBytes m vs < 4 * m * ((256 * m + 128).log2 + 1) + m := fun q hq hlt => by
    have h1 := log2_mono hq
    have h2 : 4 * m * (q.log2 + 1) ≤ 4 * m * ((256 * m + 128).log2 + 1) := Nat.mul_le_mul_left _ (by omega)
    omega
  have fromLoop : ∀ n b q, b ≤ 128 → loopEnd m vs n b = some q → q ≤ 256 * m + 128 := fun n b q hb hl => by
    obtain ⟨N, pos, h0, hN, ht⟩ := loop_trace n b q hl
    have := ht.final hm (by omega)
    omega
  rw [heldAfter] at h
  split at h
  · rcases hl : loopEnd m vs (vs.length + 2) 0 with _ | q
    · rw [hl] at h; cases h
    · have hq := fromLoop _ _ _ (by omega) hl
      rw [hl] at h
      rw [← Option.some.inj h]
      exact ⟨key q hq (loop_zero hm hl), by rw [List.length_drop]; omega⟩
  · cases hf : fill (m - held.flatten.length) vs with
    | none =>
      rw [hf] at h
      have h1 := fill_none hf
      have h2 := capped_le m vs
      rw [← Option.some.inj h]
      exact ⟨by omega, by rw [List.length_append]; omega⟩
    | some j =>
      rw [hf] at h
      simp only at h
      split at h
      · rename_i hj
        rcases hl : loopEnd m vs (vs.length + 2) j with _ | q
        · rw [hl] at h; cases h
        · have hq := fromLoop _ _ _ (by omega) hl
          rw [hl] at h
          rw [← Option.some.inj h]
          refine ⟨key q hq ?_, by rw [List.length_drop]; omega⟩
          rcases Nat.eq_zero_or_pos j with rfl | hj
          · exact loop_zero hm hl
          · exact loop_run hm _ 0 j q (Run.first hm (by omega) hf hj) hl
      · cases h

/-- Nothing is got rid of but by writing a block of at most 128 items. -/
theorem completes_held {m : Nat} (bufs : List (List Bytes)) : ∀ held, Completes m held bufs → held.length ≤ 128 := by
  induction bufs with
  | nil => intro held h; exact h
  | cons b bs ih =>
    intro held h
    rw [Completes] at h
    rcases hh : heldAfter m held b with _ | held'
    · rw [hh] at h; exact h.elim
    · rw [hh] at h
      have h1 := ih held' h
      rw [heldAfter] at hh
      split at hh
      · rename_i h0; rw [h0]; simp
      · cases hf : fill (m - held.flatten.length) b with
        | none =>
          rw [hf] at hh
          rw [← Option.some.inj hh, List.length_append] at h1
          omega
        | some j =>
          rw [hf] at hh
          simp only at hh
          split at hh
          · omega
          · cases hh

theorem completes_small {m : Nat} (hm : 0 < m) (bufs : List (List Bytes)) : ∀ held, Completes m held bufs →
    ∀ vs ∈ bufs, cappedBytes m vs < 4 * m * ((256 * m + 128).log2 + 1) + m ∧ vs.length ≤ 256 * (m + 1) := by
  induction bufs with
  | nil => intro held _ vs hv; cases hv
  | cons b bs ih =>
    intro held h vs hv
    rw [Completes] at h
    rcases hh : heldAfter m held b with _ | held'
    · rw [hh] at h; exact h.elim
    · rw [hh] at h
      rcases List.mem_cons.mp hv with rfl | hv
      · have h1 := heldAfter_small hm hh
        have h2 := completes_held bs held' h
        exact ⟨h1.1, by omega⟩
      · exact ih held' h vs hv

end LargeBuffer

variable {S : Type}

/-- The calls with any sink return only if those with a sink that takes everything do. -/
theorem returns_recorded (p : Profile) (k : Sink S) (bs : List BinaryBuffer) (e e' : BinaryEnc.Encoder) (s s' : S)
    (h : encodeColumn p k bs (e, s) = (.ok (), (e', s'))) :
    ∃ e1 blocks, encodeColumn p recorder bs (e, []) = (.ok (), (e1, blocks)) := by
  obtain ⟨l, r, e1, h1, h2⟩ := (C38_binary_sink_errors p k).2.2 bs e
  have h3 := h2 s
  rcases hf : feed k s l with ⟨f | u, s1⟩
  · rw [hf] at h3
    obtain ⟨e2, h3⟩ := h3
    rw [h] at h3
    cases (Prod.mk.inj h3).1
  · rw [hf] at h3
    simp only at h3
    rw [h] at h3
    have hr := (Prod.mk.inj h3).1
    subst hr
    exact ⟨e1, [] ++ l, h1 []⟩

/-- C33 fails for every buffer with many bytes, in both build profiles, with any sink and whatever the other buffers of the
column are: if its values, those larger than a block counted as one block each, have `4 * (log2 (256 * m + 128) + 1) + 1` blocks
of bytes, the calls do not return normally. -/
theorem C33_many_bytes_violated (p : Profile) (k : Sink S) (s : S) (nullable : Bool) (m : Nat) (hm : 0 < m)
    (bufs : List (List (Option Bytes))) (bs) (hb : buildBinary nullable bufs = .ok bs)
    (hlen : bufs.flatten.length < 2 ^ 32) (hm32 : m ≤ U32_MAX) (b : List (Option Bytes)) (hmem : b ∈ bufs)
    (hlarge : 4 * m * ((256 * m + 128).log2 + 1) + m ≤ cappedBytes m (valuesOf b)) :
    ∃ f t, encodeColumn p k bs (Encoder.new m nullable, s) = (.error f, t) := by
  rcases hr : encodeColumn p k bs (Encoder.new m nullable, s) with ⟨f | u, t⟩
  · exact ⟨f, t, rfl⟩
  · obtain ⟨e1, blocks, h1⟩ := returns_recorded p k bs _ t.1 s t.2 hr
    have h2 := ((C33_binary_completes_exact p nullable m hm bufs bs hb hlen hm32).1.mp ⟨e1, blocks, h1⟩).1
    have h3 := (LargeBuffer.completes_small hm _ _ h2 (valuesOf b) (List.mem_map_of_mem hmem)).1
    omega

/-- C33 fails for every buffer with many values, however small they are. -/
theorem C33_many_values_violated (p : Profile) (k : Sink S) (s : S) (nullable : Bool) (m : Nat) (hm : 0 < m)
    (bufs : List (List (Option Bytes))) (bs) (hb : buildBinary nullable bufs = .ok bs)
    (hlen : bufs.flatten.length < 2 ^ 32) (hm32 : m ≤ U32_MAX) (b : List (Option Bytes)) (hmem : b ∈ bufs)
    (hmany : 256 * (m + 1) < (valuesOf b).length) :
    ∃ f t, encodeColumn p k bs (Encoder.new m nullable, s) = (.error f, t) := by
  rcases hr : encodeColumn p k bs (Encoder.new m nullable, s) with ⟨f | u, t⟩
  · exact ⟨f, t, rfl⟩
  · obtain ⟨e1, blocks, h1⟩ := returns_recorded p k bs _ t.1 s t.2 hr
    have h2 := ((C33_binary_completes_exact p nullable m hm bufs bs hb hlen hm32).1.mp ⟨e1, blocks, h1⟩).1
    have h3 := (LargeBuffer.completes_small hm _ _ h2 (valuesOf b) (List.mem_map_of_mem hmem)).2
    omega

/-- C33 with the block size that segment_writer.rs uses: no column is encoded in which one buffer has more than 33024 values,
or 8320 bytes in values of at most 128 bytes. -/
theorem C33_eight_kilobytes_violated (p : Profile) (k : Sink S) (s : S) (nullable : Bool)
    (bufs : List (List (Option Bytes))) (bs) (hb : buildBinary nullable bufs = .ok bs)
    (hlen : bufs.flatten.length < 2 ^ 32) (b : List (Option Bytes)) (hmem : b ∈ bufs)
    (hlarge : 33024 < (valuesOf b).length ∨ (∀ v ∈ valuesOf b, v.length ≤ 128) ∧ 8320 ≤ byteCount b) :
    ∃ f t, encodeColumn p k bs (Encoder.new 128 nullable, s) = (.error f, t) := by
  rcases hlarge with h | ⟨hsmall, h⟩
  · exact C33_many_values_violated p k s nullable 128 (by omega) bufs bs hb hlen (by decide) b hmem h
  · refine C33_many_bytes_violated p k s nullable 128 (by omega) bufs bs hb hlen (by decide) b hmem ?_
    have hl : Nat.log2 (256 * 128 + 128) = 15 := by decide
    rw [LargeBuffer.capped_eq 128 _ hsmall, hl]
    exact h

namespace LargeBuffer

theorem second_block {m : Nat} {vs : List Bytes} {j j' : Nat} (h1 : fill m vs = some j)
    (h2 : fill m (vs.drop j) = some j') (hle : j' ≤ j) (bufs : List (List Bytes)) : ¬ Completes m [] (vs :: bufs) := by
  have hl : loopEnd m vs (vs.length + 2) 0 = none := by
    rw [loopEnd, List.drop_zero, h1]
    simp only
    split
    · rw [loopEnd, h2]
      simp only
      rw [if_neg (by omega)]
    · rfl
  simp [Completes, heldAfter, hl]

theorem flatten_even {n : Nat} {vs : List Bytes} (h : ∀ v ∈ vs, v.length = n) : vs.flatten.length = vs.length * n := by
  induction vs with
  | nil => simp
  | cons v vs ih =>
    have h1 := h v (by simp)
    have h2 := ih (fun w hw => h w (by simp [hw]))
    simp only [List.flatten_cons, List.length_append, List.length_cons, Nat.add_mul, h1, h2]
    omega

/-- With values of `n` bytes, a block has as many as it takes. -/
theorem fill_even {m n : Nat} (hn : 0 < n) {vs : List Bytes} (h : ∀ v ∈ vs, v.length = n) {j : Nat} (hj : fill m vs = some j) :
    m ≤ j * n ∧ j * n < m + n := by
  obtain ⟨h1, h2, h3⟩ := fill_some hj
  have h4 := flatten_even (vs := vs.take j) (fun v hv => h v (List.mem_of_mem_take hv))
  rw [List.length_take, Nat.min_eq_left h1] at h4
  refine ⟨by omega, ?_⟩
  cases j with
  | zero => omega
  | succ j =>
    have h5 := h3 j (by omega)
    have h6 := flatten_even (vs := vs.take j) (fun v hv => h v (List.mem_of_mem_take hv))
    rw [List.length_take, Nat.min_eq_left (by omega)] at h6
    rw [Nat.add_mul]; omega

end LargeBuffer

/-- C33 fails for every first buffer of values of the same size that makes two blocks: the `2 * j` values of `n` bytes each,
where `j` values are a block, and whatever follows. -/
theorem C33_even_sizes_violated (p : Profile) (k : Sink S) (s : S) (nullable : Bool) (m n : Nat) (hm : 0 < m) (hn : 0 < n)
    (first : List (Option Bytes)) (bufs : List (List (Option Bytes))) (bs) (hb : buildBinary nullable (first :: bufs) = .ok bs)
    (hlen : (first :: bufs).flatten.length < 2 ^ 32) (hm32 : m ≤ U32_MAX)
    (heven : ∀ v ∈ valuesOf first, v.length = n) (htwo : 2 * ((m + n - 1) / n) ≤ (valuesOf first).length) :
    ∃ f t, encodeColumn p k bs (Encoder.new m nullable, s) = (.error f, t) := by
  rcases hr : encodeColumn p k bs (Encoder.new m nullable, s) with ⟨f | u, t⟩
  · exact ⟨f, t, rfl⟩
  · obtain ⟨e1, blocks, h1⟩ := returns_recorded p k bs _ t.1 s t.2 hr
    have h2 := ((C33_binary_completes_exact p nullable m hm (first :: bufs) bs hb hlen hm32).1.mp ⟨e1, blocks, h1⟩).1
    refine absurd h2 ?_
    rw [List.map_cons]
    generalize hc : (m + n - 1) / n = c at htwo
    have hcm : m ≤ c * n ∧ c * n ≤ m + n - 1 := by
      have h3 := Nat.div_add_mod (m + n - 1) n
      have h4 := Nat.mod_lt (m + n - 1) hn
      rw [hc] at h3
      rw [Nat.mul_comm c n]
      omega
    have hfull : ∀ vs : List Bytes, (∀ v ∈ vs, v.length = n) → c ≤ vs.length → fill m vs = some c := by
      intro vs hv hle
      rcases hf : fill m vs with _ | j
      · have h3 := fill_none hf
        rw [LargeBuffer.flatten_even hv] at h3
        have h4 : c * n ≤ vs.length * n := Nat.mul_le_mul_right n hle
        omega
      · obtain ⟨h3, h4⟩ := LargeBuffer.fill_even hn hv hf
        have h5 : j < c + 1 := by
          apply Nat.lt_of_mul_lt_mul_right (a := n)
          rw [Nat.add_mul]; omega
        have h6 : c < j + 1 := by
          apply Nat.lt_of_mul_lt_mul_right (a := n)
          rw [Nat.add_mul]; omega
        rw [show j = c by omega]
    exact LargeBuffer.second_block (hfull _ heven (by omega))
      (hfull _ (fun v hv => heven v (List.mem_of_mem_drop hv)) (by rw [List.length_drop]; omega)) (Nat.le_refl c) _

/-- Not vacuous: ten values of 32 bytes make two blocks of 128 bytes and a rest; a buffer of 66 values of 127 bytes is one
that `C33_eight_kilobytes_violated` is about. And there are buffers with several blocks that are encoded: one value of 4 bytes and two of 2
bytes, four of 1 byte. -/
example : cappedBytes 128 (List.replicate 10 (List.replicate 32 0)) = 320 ∧
    cappedBytes 128 (List.replicate 66 (List.replicate 127 0)) = 8382 ∧
    2 * ((128 + 32 - 1) / 32) ≤ (List.replicate 10 (List.replicate 32 (0 : UInt8))).length ∧
    cappedBytes 4 [[1], List.replicate 900 7, []] = 5 := by decide +kernel

example : Completes 4 [] [[[1, 2, 3, 4], [5, 6], [7, 8]]] ∧ ¬ Completes 4 [] [[[1, 2], [3, 4], [5, 6], [7, 8]]] ∧
    Completes 4 [] [[[1, 2, 3, 4], [5, 6], [7, 8], [9], [10], [11], [12]]] := by decide

end
end Meerkat
