import Verif.Spec.BlockReader

set_option autoImplicit false

/-! # Facts about the block reader -/

namespace Meerkat

theorem ReadExactAt.ok_spec {faulty : Bool} {file : Bytes} {off n : Nat} {r : Except ReadError Bytes}
    (h : ReadExactAt faulty file off n r) {bs : Bytes} (hr : r = .ok bs) :
    (n = 0 ∨ off + n ≤ file.length) ∧ bs = (file.drop off).take n := by
  induction h generalizing bs with
  | full off => cases hr; simp
  | eof => cases hr
  | read off n k hk hn hlen r _ ih =>
    rcases r with e | bs'
    · cases hr
    · obtain ⟨h1, h2⟩ := ih rfl
      cases hr
      refine ⟨Or.inr (by omega), ?_⟩
      rw [h2]
      have : n = k + (n - k) := by omega
      rw [this, List.take_add, List.drop_drop]
      simp
  | interrupted off n hn r _ ih => exact ih hr
  | offset => cases hr
  | failed => cases hr

/-- Without faults only a read past the end fails. -/
theorem ReadExactAt.error_spec {file : Bytes} (hlen : file.length < 2 ^ 63) {off n : Nat}
    {r : Except ReadError Bytes} (h : ReadExactAt false file off n r) {e : ReadError} (hr : r = .error e) :
    0 < n ∧ file.length < off + n := by
  induction h generalizing e with
  | full off => cases hr
  | eof off n hn h => exact ⟨hn, by omega⟩
  | read off n k hk hn hlen r _ ih =>
    rcases r with e' | bs'
    · have := ih rfl; exact ⟨by omega, by omega⟩
    · cases hr
  | interrupted off n hn r _ ih => exact ih hr
  | offset off n hn h => exact ⟨hn, by omega⟩
  | failed _ _ _ hf => cases hf

theorem ReadExactAt.exists (faulty : Bool) (file : Bytes) (off n : Nat) :
    ∃ r, ReadExactAt faulty file off n r := by
  by_cases hn : n = 0
  · subst hn; exact ⟨_, .full off⟩
  · by_cases hoff : file.length ≤ off
    · exact ⟨_, .eof off n (by omega) hoff⟩
    · by_cases hle : off + n ≤ file.length
      · refine ⟨_, .read off n n (by omega) (Nat.le_refl n) hle (.ok []) ?_⟩
        rw [Nat.sub_self]; exact .full _
      · refine ⟨_, .read off n (file.length - off) (by omega) (by omega) (by omega) (.error .eof) ?_⟩
        exact .eof _ _ (by omega) (by omega)

theorem ReadBlock.exists (p : Profile) (faulty : Bool) (file : Bytes) (range : BlockRange) :
    ∃ r, ReadBlock p faulty file range r := by
  rcases h : p.sub 64 range.end range.start with e | n
  · exact ⟨_, .overflow e h⟩
  · by_cases hn : 2 ^ 63 ≤ n
    · exact ⟨_, .capacity n h hn⟩
    · obtain ⟨r, hr⟩ := ReadExactAt.exists faulty file range.start n
      exact ⟨r, .read n h (by omega) r hr⟩

theorem ReadBlock.ok_spec {p : Profile} {faulty : Bool} {file : Bytes} (hlen : file.length < 2 ^ 63)
    {range : BlockRange} (hs : range.start < 2 ^ 64) {bs : Bytes}
    (h : ReadBlock p faulty file range (.ok bs)) : InFile file range ∧ bs = bytesOf file range := by
  cases h with
  | read n h hn r hr =>
    obtain ⟨h1, h2⟩ := hr.ok_spec rfl
    by_cases hle : range.start ≤ range.end
    · rw [p.sub_ok hle] at h; cases h
      exact ⟨⟨hle, by omega⟩, h2⟩
    · exfalso
      simp only [Profile.sub, if_neg hle] at h
      cases p
      · cases h
      · cases h
        rw [Nat.mod_eq_of_lt (by omega)] at h1 hn
        omega

theorem ReadBlock.error_spec {p : Profile} {file : Bytes} (hlen : file.length < 2 ^ 63)
    {range : BlockRange} {e : ReadError}
    (h : ReadBlock p false file range (.error e)) : ¬ InFile file range := by
  rintro ⟨hle, hin⟩
  have hsub := p.sub_ok (w := 64) hle
  cases h with
  | overflow e h => rw [hsub] at h; cases h
  | capacity n h hn => rw [hsub] at h; cases h; omega
  | read n h hn r hr =>
    rw [hsub] at h; cases h
    have := hr.error_spec hlen rfl
    omega
  | cancelled hf => cases hf

namespace ReadStream

variable {reads : BlockRange → Except ReadError Bytes → Prop}

/-- Invariant of the stream over `ops`. -/
structure Inv (reads : BlockRange → Except ReadError Bytes → Prop) (ops : List ReadOp) (s : ReadStream) : Prop where
  todo : s.todo = ops.drop s.nextIncoming
  incoming : s.nextIncoming ≤ ops.length
  outgoing : s.nextOutgoing ≤ s.nextIncoming
  numbers : (s.running.map Prod.fst ++ s.queued.map Prod.fst).Perm
    (List.range' s.nextOutgoing (s.nextIncoming - s.nextOutgoing))
  runningOps : ∀ x ∈ s.running, ops[x.1]? = some x.2
  queuedOps : ∀ x ∈ s.queued, ops[x.1]? = some x.2.1 ∧ reads x.2.1.blockRange x.2.2
  outLength : s.out.length = s.nextOutgoing
  outResults : ∀ i op, i < s.nextOutgoing → ops[i]? = some op →
    ∃ r, s.out[i]? = some (yieldOf op r) ∧ reads op.blockRange r
  room : s.running.length + s.queued.length ≤ BLOCK_BUFFER_SIZE

theorem Inv.start (ops : List ReadOp) : Inv reads ops (start ops) where
  todo := rfl
  incoming := Nat.zero_le _
  outgoing := Nat.le_refl _
  numbers := by simp [ReadStream.start]
  runningOps := by simp [ReadStream.start]
  queuedOps := by simp [ReadStream.start]
  outLength := rfl
  outResults := by simp [ReadStream.start]
  room := by simp [ReadStream.start]

/-- The next number leaves the front of the range. -/
theorem perm_tail {l : List Nat} {o i : Nat} (hlt : o < i)
    (h : (o :: l).Perm (List.range' o (i - o))) : l.Perm (List.range' (o + 1) (i - (o + 1))) := by
  have : i - o = (i - (o + 1)) + 1 := by omega
  rw [this, List.range'_succ] at h
  exact List.perm_cons o |>.1 h

theorem out_step {ops : List ReadOp} {s : ReadStream} (hi : Inv reads ops s) {op : ReadOp}
    {r : Except ReadError Bytes} (hop : ops[s.nextOutgoing]? = some op)
    (hr : reads op.blockRange r) :
    ∀ i op', i < s.nextOutgoing + 1 → ops[i]? = some op' →
      ∃ r', (s.out ++ [yieldOf op r])[i]? = some (yieldOf op' r') ∧ reads op'.blockRange r' := by
  intro i op' hlt hget
  by_cases h : i < s.nextOutgoing
  · obtain ⟨r', h1, h2⟩ := hi.outResults i op' h hget
    refine ⟨r', ?_, h2⟩
    rw [List.getElem?_append_left (by rw [hi.outLength]; exact h)]
    exact h1
  · obtain rfl : i = s.nextOutgoing := by omega
    rw [hop] at hget; cases hget
    refine ⟨r, ?_, hr⟩
    rw [← hi.outLength]; simp

theorem Inv.step {ops : List ReadOp} {s t : ReadStream} (hi : Inv reads ops s)
    (h : Step reads s t) : Inv reads ops t := by
  cases h with
  | fill op rest htodo hroom =>
    have hlt : s.nextIncoming < ops.length := by
      have := congrArg List.length hi.todo
      rw [htodo] at this; simp at this; omega
    have hget : ops[s.nextIncoming]? = some op := by
      have := congrArg List.head? hi.todo
      rw [htodo] at this; simpa [List.head?_drop] using this.symm
    refine ⟨?_, hlt, by have := hi.outgoing; dsimp only; omega, ?_, ?_, hi.queuedOps, hi.outLength, hi.outResults, ?_⟩
    · have := congrArg List.tail hi.todo
      rw [htodo] at this
      simpa [List.tail_drop] using this
    · have h1 := hi.numbers
      have h2 : s.nextIncoming + 1 - s.nextOutgoing = (s.nextIncoming - s.nextOutgoing) + 1 := by
        have := hi.outgoing; omega
      dsimp only
      rw [h2, List.range'_concat, List.map_append, List.append_assoc]
      have h3 : s.nextOutgoing + 1 * (s.nextIncoming - s.nextOutgoing) = s.nextIncoming := by
        have := hi.outgoing; omega
      rw [h3]
      refine List.Perm.trans ?_ (h1.append_right _)
      rw [List.append_assoc]
      exact List.Perm.append_left _ List.perm_append_comm
    · intro x hx
      rcases List.mem_append.1 hx with hx | hx
      · exact hi.runningOps x hx
      · obtain rfl := List.mem_singleton.1 hx; exact hget
    · simp only [List.length_append, List.length_singleton]; omega
  | pop a b op r hq =>
    have hmem := hi.queuedOps (s.nextOutgoing, op, r) (by rw [hq]; simp)
    have hperm := hi.numbers
    rw [hq] at hperm
    have hlt : s.nextOutgoing < s.nextIncoming := by
      have := hperm.mem_iff.1 (show s.nextOutgoing ∈ _ by simp)
      simp [List.mem_range'_1] at this; omega
    refine ⟨hi.todo, hi.incoming, hlt, ?_, hi.runningOps, ?_, ?_, out_step hi hmem.1 hmem.2, ?_⟩
    · refine perm_tail hlt (List.Perm.trans ?_ hperm)
      simp only [List.map_append, List.map_cons]
      rw [← List.append_assoc, ← List.append_assoc]
      exact List.perm_middle.symm
    · intro x hx
      refine hi.queuedOps x ?_
      rw [hq]
      rcases List.mem_append.1 hx with hx | hx <;> simp [hx]
    · simp [hi.outLength]
    · have := hi.room; rw [hq] at this; simp at this ⊢; omega
  | finishNext a b op r hrun hr =>
    have hmem := hi.runningOps (s.nextOutgoing, op) (by rw [hrun]; simp)
    have hperm := hi.numbers
    rw [hrun] at hperm
    have hlt : s.nextOutgoing < s.nextIncoming := by
      have := hperm.mem_iff.1 (show s.nextOutgoing ∈ _ by simp)
      simp [List.mem_range'_1] at this; omega
    refine ⟨hi.todo, hi.incoming, hlt, ?_, ?_, hi.queuedOps, ?_, out_step hi hmem hr, ?_⟩
    · refine perm_tail hlt (List.Perm.trans ?_ hperm)
      simp only [List.map_append, List.map_cons, List.append_assoc, List.cons_append]
      exact List.perm_middle.symm
    · intro x hx
      refine hi.runningOps x ?_
      rw [hrun]
      rcases List.mem_append.1 hx with hx | hx <;> simp [hx]
    · simp [hi.outLength]
    · have := hi.room; rw [hrun] at this; simp at this ⊢; omega
  | finishLater a b i op r hrun hne hr =>
    have hmem := hi.runningOps (i, op) (by rw [hrun]; simp)
    have hperm := hi.numbers
    rw [hrun] at hperm
    refine ⟨hi.todo, hi.incoming, hi.outgoing, ?_, ?_, ?_, hi.outLength, hi.outResults, ?_⟩
    · refine List.Perm.trans ?_ hperm
      simp only [List.map_append, List.map_cons, List.map_nil, List.append_assoc, List.cons_append]
      refine List.Perm.append_left _ ?_
      rw [← List.append_assoc]
      exact List.perm_append_singleton _ _
    · intro x hx
      refine hi.runningOps x ?_
      rw [hrun]
      rcases List.mem_append.1 hx with hx | hx <;> simp [hx]
    · intro x hx
      rcases List.mem_append.1 hx with hx | hx
      · exact hi.queuedOps x hx
      · obtain rfl := List.mem_singleton.1 hx; exact ⟨hmem, hr⟩
    · have := hi.room; rw [hrun] at this; simp at this ⊢; omega

theorem Inv.steps {ops : List ReadOp} {n : Nat} {s t : ReadStream} (hi : Inv reads ops s)
    (h : Steps reads n s t) : Inv reads ops t := by
  induction h with
  | refl => exact hi
  | step _ hs ih => exact ih hi |>.step hs

/-- A stream that has not ended can go on. -/
theorem Inv.progress {ops : List ReadOp} {s : ReadStream} (htotal : ∀ range, ∃ r, reads range r) (hi : Inv reads ops s)
    (h : ¬ s.Ended) :
    ∃ t, Step reads s t := by
  by_cases hlt : s.nextOutgoing < s.nextIncoming
  · have hmem : s.nextOutgoing ∈ s.running.map Prod.fst ++ s.queued.map Prod.fst := by
      rw [hi.numbers.mem_iff]; simp [List.mem_range'_1]; omega
    rcases List.mem_append.1 hmem with hmem | hmem
    · obtain ⟨⟨i, op⟩, hx, hi'⟩ := List.mem_map.1 hmem
      obtain ⟨a, b, hab⟩ := List.append_of_mem hx
      obtain ⟨r, hr⟩ := htotal op.blockRange
      obtain rfl : i = s.nextOutgoing := hi'
      exact ⟨_, .finishNext s a b op r hab hr⟩
    · obtain ⟨⟨i, op, r⟩, hx, hi'⟩ := List.mem_map.1 hmem
      obtain ⟨a, b, hab⟩ := List.append_of_mem hx
      obtain rfl : i = s.nextOutgoing := hi'
      exact ⟨_, .pop s a b op r hab⟩
  · have hz : s.nextIncoming - s.nextOutgoing = 0 := by omega
    have hp := hi.numbers
    rw [hz] at hp
    have hnil : s.running = [] ∧ s.queued = [] := by simpa using hp
    rcases htodo : s.todo with _ | ⟨op, rest⟩
    · exact absurd ⟨htodo, hnil⟩ h
    · exact ⟨_, .fill s op rest htodo (by rw [hnil.1, hnil.2]; decide)⟩

/-- Bound on the steps left. -/
def measure (s : ReadStream) : Nat := 3 * s.todo.length + 2 * s.running.length + s.queued.length

theorem Step.measure {s t : ReadStream} (h : Step reads s t) : t.measure + 1 ≤ s.measure := by
  cases h with
  | fill op rest htodo hroom => simp only [ReadStream.measure, htodo, List.length_append, List.length_cons, List.length_nil]; omega
  | pop a b op r hq => simp only [ReadStream.measure, hq, List.length_append, List.length_cons]; omega
  | finishNext a b op r hrun hr => simp only [ReadStream.measure, hrun, List.length_append, List.length_cons]; omega
  | finishLater a b i op r hrun hne hr =>
    simp only [ReadStream.measure, hrun, List.length_append, List.length_cons, List.length_nil]; omega

theorem Steps.measure {n : Nat} {s t : ReadStream} (h : Steps reads n s t) : t.measure + n ≤ s.measure := by
  induction h with
  | refl => exact Nat.le_refl _
  | step _ hs ih => have := hs.measure; omega

/-- Any run can be carried to the end. -/
theorem Inv.finishes {ops : List ReadOp} {s : ReadStream} (htotal : ∀ range, ∃ r, reads range r) (hi : Inv reads ops s) {n : Nat} {s0 : ReadStream}
    (h : Steps reads n s0 s) : ∃ m t, Steps reads m s0 t ∧ t.Ended := by
  generalize hm : s.measure = k
  induction k using Nat.strongRecOn generalizing s n with
  | ind k ih =>
    by_cases he : s.Ended
    · exact ⟨n, s, h, he⟩
    · obtain ⟨t, ht⟩ := hi.progress htotal he
      exact ih t.measure (by have := ht.measure; omega) (hi.step ht) (.step h ht) rfl

theorem Inv.ended {ops : List ReadOp} {s : ReadStream} (hi : Inv reads ops s) (h : s.Ended) :
    s.nextOutgoing = ops.length := by
  obtain ⟨h1, h2, h3⟩ := h
  have hp := hi.numbers
  rw [h2, h3] at hp
  have : List.range' s.nextOutgoing (s.nextIncoming - s.nextOutgoing) = [] := List.Perm.eq_nil hp.symm
  have h5 := congrArg List.length this
  simp at h5
  have h6 := congrArg List.length hi.todo
  rw [h1] at h6; simp at h6
  have := hi.outgoing; have := hi.incoming
  omega

end ReadStream
end Meerkat
