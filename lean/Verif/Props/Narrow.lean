import Verif.Model.Narrow
import Verif.Props.BlockReader

set_option autoImplicit false

/-! # Reading on a 32-bit machine: C102 -/

namespace Meerkat

/-- Every call has a result. -/
theorem C102_total (p : Profile) (faulty : Bool) (file : Bytes) (range : BlockRange) :
    ∃ r, ReadBlock32 p faulty file range r := by
  rcases h : p.sub 64 range.end range.start with e | n
  · exact ⟨_, .overflow e h⟩
  · by_cases hn : 2 ^ 31 ≤ n % 2 ^ 32
    · exact ⟨_, .capacity n h hn⟩
    · obtain ⟨r, hr⟩ := ReadExactAt.exists faulty file range.start (n % 2 ^ 32)
      exact ⟨_, .read n h (by omega) r hr⟩

/-- C102, exactly: a 32-bit machine reads, of a range of `n` bytes, the range of `n` modulo 2^32 bytes from the same start, if this
is below 2^31, as a 64-bit machine does; otherwise the task panics, and so it does for a reversed range in debug builds. In release
builds the length of a reversed range is taken modulo 2^64 before. -/
theorem C102_word_exact (p : Profile) (faulty : Bool) (file : Bytes) (range : BlockRange) (r : Except ReadError Bytes) :
    ReadBlock32 p faulty file range r ↔
      match p.sub 64 range.end range.start with
      | .error _ => r = .error .task
      | .ok n => if n % 2 ^ 32 < 2 ^ 31 then ReadBlock p faulty file ⟨range.start, range.start + n % 2 ^ 32⟩ r
          else r = .error .task := by
  rcases hs : p.sub 64 range.end range.start with e | n
  · simp only
    constructor
    · intro h
      cases h with
      | overflow e h => rfl
      | capacity n h hn => rfl
      | read n h hn r hr => rw [hs] at h; cases h
      | cancelled hf => rfl
    · rintro rfl
      exact .overflow e hs
  · simp only
    have hsub : p.sub 64 (range.start + n % 2 ^ 32) range.start = .ok (n % 2 ^ 32) := by
      rw [p.sub_ok (Nat.le_add_right _ _), Nat.add_sub_cancel_left]
    split
    next hn =>
      constructor
      · intro h
        cases h with
        | overflow e h => rw [hs] at h; cases h
        | capacity n h hn => rw [hs] at h; cases h; omega
        | read n h hn r hr =>
          rw [hs] at h
          cases h
          exact .read _ hsub (by omega) r hr
        | cancelled hf => exact .cancelled hf
      · intro h
        cases h with
        | overflow e h => rw [hsub] at h; cases h
        | capacity n h hn => rw [hsub] at h; cases h; omega
        | read n h hn' r hr =>
          rw [hsub] at h
          cases h
          exact .read _ hs hn r hr
        | cancelled hf => exact .cancelled hf
    next hn =>
      constructor
      · intro h
        cases h with
        | overflow e h => rfl
        | capacity n h hn => rfl
        | read n h hn r hr => rw [hs] at h; cases h; omega
        | cancelled hf => rfl
      · rintro rfl
        exact .capacity n hs (by omega)

/-- C102 as far as it holds: ranges of fewer than 2^31 bytes are read as on a 64-bit machine. -/
theorem C102_word_partial (p : Profile) (faulty : Bool) (file : Bytes) (range : BlockRange) (h : range.start ≤ range.end)
    (hlen : range.end - range.start < 2 ^ 31) (r : Except ReadError Bytes) :
    ReadBlock32 p faulty file range r ↔ ReadBlock p faulty file range r := by
  rw [C102_word_exact, p.sub_ok h]
  simp only
  rw [Nat.mod_eq_of_lt (by omega), if_pos hlen, Nat.add_sub_of_le h]

/-- C102: of the ranges that the file has, a 32-bit machine reads those of fewer than 2^31 bytes and no others. -/
theorem C102_word_iff (p : Profile) (file : Bytes) (hfile : file.length < 2 ^ 63) (range : BlockRange) (hin : InFile file range)
    (hstart : range.start < 2 ^ 64) :
    (∀ r, ReadBlock32 p false file range r → r = .ok (bytesOf file range)) ↔ range.end - range.start < 2 ^ 31 := by
  constructor
  · intro h
    apply Decidable.byContradiction
    intro hlen
    have hle : range.start ≤ range.end := hin.1
    obtain ⟨r, hr⟩ := C102_total p false file range
    have hr' := hr
    rw [C102_word_exact, p.sub_ok hle] at hr'
    simp only at hr'
    split at hr'
    next hn =>
      have := h r hr
      subst this
      have h3 := (ReadBlock.ok_spec (range := ⟨range.start, range.start + (range.end - range.start) % 2 ^ 32⟩) hfile hstart hr').2
      have h4 := congrArg List.length h3
      have hend := hin.2
      simp only [bytesOf, List.length_take, List.length_drop] at h4
      omega
    next hn => rw [h r hr] at hr'; cases hr'
  · intro hlen r hr
    rw [C102_word_partial p false file range hin.1 hlen] at hr
    exact (C43_read_block p file hfile range hstart r hr).1 hin

/-- C102 is false of the code: of a file of more than 2^32 bytes, read as a whole, a 32-bit machine returns the first few
without an error. -/
theorem C102_word_violated (p : Profile) (n : Nat) (hn : n < 2 ^ 31) :
    ∃ file : Bytes, file.length = 2 ^ 32 + n ∧
      (∀ r, ReadBlock p false file ⟨0, 2 ^ 32 + n⟩ r ↔ r = .ok file) ∧
      ∀ r, ReadBlock32 p false file ⟨0, 2 ^ 32 + n⟩ r ↔ r = .ok (file.take n) := by
  refine ⟨List.replicate (2 ^ 32 + n) 0, List.length_replicate, ?_, ?_⟩
  all_goals generalize hf : List.replicate (2 ^ 32 + n) (0 : Byte) = file
  all_goals have hl : file.length = 2 ^ 32 + n := by rw [← hf, List.length_replicate]
  all_goals clear hf
  · have key := fun r h => (C43_read_block p file (by omega) ⟨0, 2 ^ 32 + n⟩ (by simp only; omega) r h).1
      ⟨Nat.zero_le _, by simp only; omega⟩
    have hb : bytesOf file ⟨0, 2 ^ 32 + n⟩ = file := by
      simp only [bytesOf, List.drop_zero, Nat.sub_zero]
      exact List.take_of_length_le (by omega)
    rw [hb] at key
    refine fun r => ⟨key r, ?_⟩
    rintro rfl
    obtain ⟨r, hr⟩ := C43_total p false file ⟨0, 2 ^ 32 + n⟩
    rwa [key r hr] at hr
  · have key := fun r h => (C43_read_block p file (by omega) ⟨0, n⟩ (by simp only; omega) r h).1
      ⟨Nat.zero_le _, by simp only; omega⟩
    have hb : bytesOf file ⟨0, n⟩ = file.take n := by simp only [bytesOf, List.drop_zero, Nat.sub_zero]
    rw [hb] at key
    intro r
    rw [C102_word_exact, p.sub_ok (Nat.zero_le _)]
    have hm : (2 ^ 32 + n - 0) % 2 ^ 32 = n := by omega
    simp only [hm]
    rw [if_pos hn, Nat.zero_add]
    refine ⟨key r, ?_⟩
    rintro rfl
    obtain ⟨r, hr⟩ := C43_total p false file ⟨0, n⟩
    rwa [key r hr] at hr

/-- A reversed range can be read without an error, too, in release builds: the last `n` bytes of a file of 2^32 bytes, from their
start to 0. -/
theorem C102_reversed_violated (n : Nat) (h0 : 0 < n) (hn : n < 2 ^ 31) :
    ∃ file : Bytes, file.length = 2 ^ 32 ∧
      (∀ r, ReadBlock .release false file ⟨2 ^ 32 - n, 0⟩ r ↔ r = .error .task) ∧
      ∀ r, ReadBlock32 .release false file ⟨2 ^ 32 - n, 0⟩ r ↔ r = .ok (file.drop (2 ^ 32 - n)) := by
  have hsub : Profile.sub .release 64 0 (2 ^ 32 - n) = .ok (2 ^ 64 - 2 ^ 32 + n) := by
    simp only [Profile.sub]
    rw [if_neg (by omega)]
    congr 1
    omega
  refine ⟨List.replicate (2 ^ 32) 0, List.length_replicate, ?_, ?_⟩
  all_goals generalize hf : List.replicate (2 ^ 32) (0 : Byte) = file
  all_goals have hl : file.length = 2 ^ 32 := by rw [← hf, List.length_replicate]
  all_goals clear hf
  · intro r
    constructor
    · intro h
      cases h with
      | overflow e h => rfl
      | capacity n h hn => rfl
      | read m h hm r hr => rw [hsub] at h; cases h; omega
      | cancelled hf => rfl
    · rintro rfl
      exact .capacity _ hsub (by omega)
  · have key := fun r h => (C43_read_block .release file (by omega) ⟨2 ^ 32 - n, 2 ^ 32 - n + n⟩ (by simp only; omega) r h).1
      ⟨Nat.le_add_right _ _, by simp only; omega⟩
    have hb : bytesOf file ⟨2 ^ 32 - n, 2 ^ 32 - n + n⟩ = file.drop (2 ^ 32 - n) := by
      simp only [bytesOf]
      exact List.take_of_length_le (by rw [List.length_drop]; omega)
    rw [hb] at key
    intro r
    rw [C102_word_exact]
    simp only [hsub]
    have hm : (2 ^ 64 - 2 ^ 32 + n) % 2 ^ 32 = n := by omega
    rw [hm, if_pos hn]
    refine ⟨key r, ?_⟩
    rintro rfl
    obtain ⟨r, hr⟩ := C43_total .release false file ⟨2 ^ 32 - n, 2 ^ 32 - n + n⟩
    rwa [key r hr] at hr

/-! Not vacuous: a range in two parts and one past the end. -/
example : ReadBlock32 .release false [1, 2, 3, 4] ⟨1, 4⟩ (.ok [2, 3, 4]) ∧
    ReadBlock32 .debug false [1, 2, 3, 4] ⟨3, 5⟩ (.error .eof) ∧
    ReadBlock32 .debug false [1, 2, 3, 4] ⟨1, 2 ^ 32 + 3⟩ (.ok [2, 3]) := by
  refine ⟨.read 3 rfl (by decide) _ (.read 1 3 2 (by decide) (by decide) (by decide) (.ok [4])
      (.read 3 1 1 (by decide) (by decide) (by decide) (.ok []) (.full _))),
    .read 2 rfl (by decide) _
      (.read 3 2 1 (by decide) (by decide) (by decide) (.error .eof) (.eof _ _ (by decide) (by decide))),
    .read (2 ^ 32 + 2) rfl (by decide) _ (.read 1 2 2 (by decide) (by decide) (by decide) (.ok []) (.full _))⟩

end Meerkat
