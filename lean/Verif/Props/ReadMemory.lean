import Verif.Props.BlockReader

set_option autoImplicit false

/-! # Reading with limited memory: C95 -/

namespace Meerkat

/-- What a call gives, if it gives something, is what `read_block` gives. -/
theorem ReadBlockWithin.result {p : Profile} {faulty : Bool} {memory : Nat} {file : Bytes} {range : BlockRange}
    {r : Except ReadError Bytes} (h : ReadBlockWithin p faulty memory file range (.done r)) :
    ReadBlock p faulty file range r := by
  cases h with
  | overflow e h => exact .overflow e h
  | capacity n h hn => exact .capacity n h hn
  | read n h hn hm r hr => exact .read n h hn r hr
  | cancelled hf => exact .cancelled hf

/-- Every call ends in some way. -/
theorem C95_total (p : Profile) (faulty : Bool) (memory : Nat) (file : Bytes) (range : BlockRange) :
    ∃ o, ReadBlockWithin p faulty memory file range o := by
  rcases h : p.sub 64 range.end range.start with e | n
  · exact ⟨_, .overflow e h⟩
  · by_cases hn : 2 ^ 63 ≤ n
    · exact ⟨_, .capacity n h hn⟩
    · by_cases hm : n ≤ memory
      · obtain ⟨r, hr⟩ := ReadExactAt.exists faulty file range.start n
        exact ⟨_, .read n h (by omega) hm r hr⟩
      · exact ⟨_, .abort n h (by omega) (by omega)⟩

/-- C95 is false of the code: whatever the file and the memory, the range of the next higher number of bytes ends the
process; and so does, in release builds, a range whose ends are swapped. -/
theorem C95_bad_range_violated (p : Profile) (memory : Nat) (hm : memory + 1 < 2 ^ 63) (file : Bytes)
    (hfile : file.length ≤ memory) :
    (∃ range : BlockRange, range.start < 2 ^ 64 ∧ range.end < 2 ^ 64 ∧ ¬ InFile file range ∧
      ∀ o, ReadBlockWithin p false memory file range o ↔ o = .abort) ∧
    ∃ range : BlockRange, range.start < 2 ^ 64 ∧ range.end < range.start ∧
      ∀ o, ReadBlockWithin .release false memory file range o ↔ o = .abort := by
  constructor
  · refine ⟨⟨0, memory + 1⟩, Nat.two_pow_pos 64, by simp only; omega, ?_, fun o => ?_⟩
    · rintro ⟨_, h⟩
      simp only at h
      omega
    · have hsub : p.sub 64 (memory + 1) 0 = .ok (memory + 1) := p.sub_ok (Nat.zero_le _)
      constructor
      · intro h
        cases h with
        | overflow e h => rw [hsub] at h; cases h
        | capacity n h hn => rw [hsub] at h; cases h; omega
        | abort n h hn hm => rfl
        | read n h hn hm r hr => rw [hsub] at h; cases h; omega
        | cancelled hf => cases hf
      · rintro rfl
        exact .abort _ hsub hm (by omega)
  · have hsub : Profile.sub .release 64 0 (2 ^ 63 + 1) = .ok (2 ^ 63 - 1) := by decide
    refine ⟨⟨2 ^ 63 + 1, 0⟩, by decide, by decide, fun o => ?_⟩
    constructor
    · intro h
      cases h with
      | overflow e h => rw [hsub] at h; cases h
      | capacity n h hn => rw [hsub] at h; cases h; omega
      | abort n h hn hm => rfl
      | read n h hn hm r hr => rw [hsub] at h; cases h; omega
      | cancelled hf => cases hf
    · rintro rfl
      exact .abort _ hsub (by decide) (by omega)

/-- C95, exactly: when the process ends, namely if the range, or in release builds the range with its ends swapped and
the distance taken modulo 2^64, is longer than the memory and shorter than 2^63. Then nothing else can happen, unless the runtime
shuts down before. -/
theorem C95_bad_range_exact (p : Profile) (faulty : Bool) (memory : Nat) (file : Bytes) (range : BlockRange)
    (hs : range.start < 2 ^ 64) :
    (ReadBlockWithin p faulty memory file range .abort ↔
      (range.start ≤ range.end ∧ memory < range.end - range.start ∧ range.end - range.start < 2 ^ 63) ∨
      (p = .release ∧ range.end < range.start ∧ memory < 2 ^ 64 - (range.start - range.end) ∧
        2 ^ 63 < range.start - range.end)) ∧
    (ReadBlockWithin p faulty memory file range .abort → ∀ o, ReadBlockWithin p faulty memory file range o →
      o = .abort ∨ (faulty = true ∧ o = .done (.error .task))) := by
  have hrev : range.end < range.start →
      p.sub 64 range.end range.start =
        match p with
        | .debug => .error .overflow
        | .release => .ok (2 ^ 64 - (range.start - range.end)) := by
    intro hlt
    simp only [Profile.sub, if_neg (Nat.not_le.2 hlt)]
    cases p with
    | debug => rfl
    | release =>
      simp only
      rw [Nat.mod_eq_of_lt (by omega)]
      congr 1
      omega
  constructor
  · constructor
    · intro h
      cases h with
      | abort n h hn hm =>
        by_cases hle : range.start ≤ range.end
        · rw [p.sub_ok hle] at h; cases h
          exact .inl ⟨hle, hm, hn⟩
        · rw [hrev (by omega)] at h
          cases p with
          | debug => cases h
          | release => cases h; exact .inr ⟨rfl, by omega, hm, by omega⟩
    · rintro (⟨h1, h2, h3⟩ | ⟨rfl, h1, h2, h3⟩)
      · exact .abort _ (p.sub_ok h1) h3 h2
      · exact .abort _ (hrev h1) (by omega) h2
  · intro h o ho
    cases h with
    | abort n h hn hm =>
      cases ho with
      | overflow e h' => rw [h] at h'; cases h'
      | capacity n' h' hn' => rw [h] at h'; cases h'; omega
      | abort => exact .inl rfl
      | read n' h' hn' hm' r hr => rw [h] at h'; cases h'; omega
      | cancelled hf => exact .inr ⟨hf, rfl⟩

/-- C95 as far as it holds: in a process that can allocate as much as the file has, a range of the file is read as C43
says; so is any range not longer than the memory, which ends in an error if it is not in the file. -/
theorem C95_bad_range_partial (p : Profile) (memory : Nat) (file : Bytes) (hlen : file.length < 2 ^ 63)
    (range : BlockRange) (hs : range.start < 2 ^ 64) (hle : range.start ≤ range.end)
    (h : (InFile file range ∧ file.length ≤ memory) ∨ range.end - range.start ≤ memory) (o : ReadOutcome)
    (ho : ReadBlockWithin p false memory file range o) :
    ∃ r, o = .done r ∧ (InFile file range → r = .ok (bytesOf file range)) ∧ (¬ InFile file range → ∃ e, r = .error e) := by
  cases o with
  | done r => exact ⟨r, rfl, C43_read_block p file hlen range hs r ho.result⟩
  | abort =>
    exfalso
    rcases (C95_bad_range_exact p false memory file range hs).1.1 ho with ⟨_, h2, _⟩ | ⟨_, h1, _⟩
    · rcases h with ⟨⟨_, h3⟩, h4⟩ | h3 <;> omega
    · omega

/-- With room for ten bytes: a range of four, one past the end, one of eleven bytes. -/
example : ReadBlockWithin .debug false 10 [1, 2, 3, 4] ⟨0, 4⟩ (.done (.ok [1, 2, 3, 4])) ∧
    ReadBlockWithin .debug false 10 [1, 2, 3, 4] ⟨4, 14⟩ (.done (.error .eof)) ∧
    ReadBlockWithin .debug false 10 [1, 2, 3, 4] ⟨4, 15⟩ .abort ∧
    ¬ ReadBlockWithin .debug false 10 [1, 2, 3, 4] ⟨15, 4⟩ .abort :=
  ⟨.read 4 rfl (by decide) (by decide) _ (.read 0 4 4 (by decide) (by decide) (by decide) (.ok []) (.full _)),
    .read 10 rfl (by decide) (by decide) _ (.eof _ _ (by decide) (by decide)), .abort 11 rfl (by decide) (by decide),
    fun h => by have := (C95_bad_range_exact .debug false 10 [1, 2, 3, 4] ⟨15, 4⟩ (by decide)).1.1 h; simp at this⟩

end Meerkat
