import Verif.Proofs.BinarySteps

set_option autoImplicit false

/-! # How many steps the binary encoder makes, however its calls end -/

namespace Meerkat

namespace Timed
variable {E S α β : Type}

/-- Started in `st`, the call ends with a result, a state and a number of steps of which `Q` holds. -/
def Costs {σ : Type} (m : Timed σ α) (st : σ) (Q : Except Fault α → σ → Nat → Prop) : Prop :=
  Q (m st).1.1 (m st).1.2 (m st).2

theorem Costs.mono {m : Timed (E × S) α} {st : E × S} {Q Q' : Except Fault α → E × S → Nat → Prop} (h : Costs m st Q)
    (hQ : ∀ r st' n, Q r st' n → Q' r st' n) : Costs m st Q' := hQ _ _ _ h

theorem Costs.pure {a : α} {st : E × S} {Q : Except Fault α → E × S → Nat → Prop} (h : Q (.ok a) st 0) :
    Costs (Pure.pure a : Timed (E × S) α) st Q := h

theorem Costs.set {e e' : E} {s : S} {Q : Except Fault Unit → E × S → Nat → Prop} (h : Q (.ok ()) (e', s) 0) :
    Costs (of (Run.set e')) (e, s) Q := h

theorem Costs.bind {m : Timed (E × S) α} {f : α → Timed (E × S) β} {st : E × S}
    {Q : Except Fault β → E × S → Nat → Prop} (h : Costs m st fun r st' n =>
      (∀ x, r = .error x → Q (.error x) st' n) ∧
      (∀ a, r = .ok a → Costs (f a) st' fun r' st'' k => Q r' st'' (n + k))) : Costs (m >>= f) st Q := by
  show Q (Timed.bind m f st).1.1 (Timed.bind m f st).1.2 (Timed.bind m f st).2
  unfold Costs at h
  unfold Timed.bind
  rcases hm : m st with ⟨⟨r, st'⟩, n⟩
  rw [hm] at h
  cases r with
  | error x => exact h.1 x rfl
  | ok a => exact h.2 a rfl

theorem Costs.get_bind {e : E} {s : S} {Q : Except Fault β → E × S → Nat → Prop} {f : E → Timed (E × S) β}
    (h : Costs (f e) (e, s) Q) : Costs (of Run.get >>= f) (e, s) Q :=
  .bind ⟨fun x hx => (nomatch hx), fun a ha => by
    cases ha
    show Costs (f e) (e, s) fun r' st k' => Q r' st (0 + k')
    simpa only [Nat.zero_add] using h⟩

theorem Costs.set_bind {e e' : E} {s : S} {Q : Except Fault β → E × S → Nat → Prop} {f : Unit → Timed (E × S) β}
    (h : Costs (f ()) (e', s) Q) : Costs (of (Run.set e') >>= f) (e, s) Q :=
  .bind ⟨fun x hx => (nomatch hx), fun a ha => by
    show Costs (f ()) (e', s) fun r' st k' => Q r' st (0 + k')
    simpa only [Nat.zero_add] using h⟩

theorem Costs.tick_bind {st : E × S} {Q : Except Fault β → E × S → Nat → Prop} {f : Unit → Timed (E × S) β}
    (h : Costs (f ()) st fun r st' n => Q r st' (1 + n)) : Costs (tick >>= f) st Q :=
  .bind ⟨fun x hx => (nomatch hx), fun a ha => by cases ha; exact h⟩

theorem Costs.lift_bind {r : Res α} {st : E × S} {Q : Except Fault β → E × S → Nat → Prop} {f : α → Timed (E × S) β}
    (he : ∀ x, r = .error x → Q (.error (.panic x)) st 0) (h : ∀ a, r = .ok a → Costs (f a) st Q) :
    Costs (of (Run.lift r) >>= f) st Q := by
  cases r with
  | error x => exact .bind ⟨fun y hy => by cases hy; exact he x rfl, fun a ha => by cases ha⟩
  | ok a => exact .bind ⟨fun y hy => (nomatch hy), fun b hb => by
    cases hb
    show Costs (f a) st fun r' st k' => Q r' st (0 + k')
    simpa only [Nat.zero_add] using h _ rfl⟩

theorem Costs.counted_bind {c : Counted α} {left : E × S → E × S} {st : E × S}
    {Q : Except Fault β → E × S → Nat → Prop} {f : α → Timed (E × S) β}
    (he : ∀ x, c.result = .error x → Q (.error (.panic x)) (left st) c.steps)
    (h : ∀ a, c.result = .ok a → Costs (f a) st fun r st' n => Q r st' (c.steps + n)) :
    Costs (lift c left >>= f) st Q := by
  refine .bind ?_
  show (∀ x, (Run.lift c.result left st).1 = .error x → _) ∧ (∀ a, (Run.lift c.result left st).1 = .ok a → _)
  show (∀ x, (Run.lift c.result left st).1 = .error x → Q (.error x) (Run.lift c.result left st).2 c.steps) ∧
    (∀ a, (Run.lift c.result left st).1 = .ok a → Costs (f a) (Run.lift c.result left st).2 fun r st' n => Q r st' (c.steps + n))
  cases hr : c.result with
  | error x => exact ⟨fun y hy => by cases hy; exact he x hr, fun a ha => by cases ha⟩
  | ok a => exact ⟨fun y hy => (nomatch hy), fun a ha => by cases ha; exact h _ hr⟩

theorem Costs.emit_bind {k : Sink S} {id : Nat} {data : Bytes} {e : E} {s : S}
    {Q : Except Fault β → E × S → Nat → Prop} {f : Unit → Timed (E × S) β}
    (he : ∀ x, (k.write s id data).1 = .error x → Q (.error x) (e, (k.write s id data).2) 0)
    (h : Costs (f ()) (e, (k.write s id data).2) Q) : Costs (of (Run.emit k id data) >>= f) (e, s) Q :=
  .bind ⟨he, fun a _ => by
    show Costs (f ()) (e, (k.write s id data).2) fun r' st k' => Q r' st (0 + k')
    simpa only [Nat.zero_add] using h⟩

end Timed

namespace BinaryEnc
open Timed
variable {S : Type} {k : Sink S} {cnt vol : S → Nat}

/-- `cnt` counts the blocks offered to the sink and `vol` no more than their bytes. -/
def Measures (k : Sink S) (cnt vol : S → Nat) : Prop :=
  ∀ s id data, cnt (k.write s id data).2 = cnt s + 1 ∧ vol (k.write s id data).2 ≤ vol s + data.length

theorem writeBlock_costs (hk : Measures k cnt vol) (p : Profile) (buf : BinaryBuffer) (hb : buf.Typed) (c : BinaryChunk)
    (hc : c.endPos ≤ buf.offsets.length) (hs : c.size < 2 ^ 32) (bp : Nat) (e : Encoder) (s : S) :
    Costs (writeBlockC p k buf c bp) (e, s) fun r st n => ∃ j ≤ 1, cnt st.2 = cnt s + j ∧
      n ≤ buf.data.length + 2 * buf.offsets.length + 700 + 25 * (bitsOf buf.validity - bp) ∧
      (buf.offsets.length < 2 ^ 63 → vol st.2 ≤ vol s + n) ∧
      ∀ a, r = .ok a → j = 1 ∧ st.1.remaining = e.remaining ∧ st.1.minBlockSize = e.minBlockSize ∧
        ∃ bits, (bitsOf buf.validity - a.lastValidityPos) + bits ≤ bitsOf buf.validity - bp ∧
          n ≤ buf.data.length + 2 * buf.offsets.length + 700 + 25 * bits := by
  obtain ⟨h1, h2⟩ := steps_encodeBinaryBufferC p buf hb c hc hs bp e.bitmapEncoder
  refine .get_bind (.counted_bind (fun x hx => ⟨0, by omega, rfl, h1, fun _ => Nat.le_add_right _ _, fun a ha => by cases ha⟩)
    fun r hr => ?_)
  rw [result_encodeBinaryBufferC] at hr
  obtain ⟨h3, h4⟩ := h2 r hr
  have stop : ∀ x : Fault, ∀ e' : Encoder, ∃ j ≤ 1, cnt ((e', s) : Encoder × S).2 = cnt s + j ∧
      (encodeBinaryBufferC p buf c bp e.bitmapEncoder).steps + 0 ≤
        buf.data.length + 2 * buf.offsets.length + 700 + 25 * (bitsOf buf.validity - bp) ∧
      (buf.offsets.length < 2 ^ 63 → vol ((e', s) : Encoder × S).2 ≤ vol s + ((encodeBinaryBufferC p buf c bp e.bitmapEncoder).steps + 0)) ∧
      ∀ a : EncodeResult, (Except.error x : Except Fault EncodeResult) = .ok a → j = 1 ∧ e'.remaining = e.remaining ∧
        e'.minBlockSize = e.minBlockSize ∧
        ∃ bits, (bitsOf buf.validity - a.lastValidityPos) + bits ≤ bitsOf buf.validity - bp ∧
          (encodeBinaryBufferC p buf c bp e.bitmapEncoder).steps + 0 ≤ buf.data.length + 2 * buf.offsets.length + 700 + 25 * bits :=
    fun x e' => ⟨0, by omega, rfl, h1, fun _ => Nat.le_add_right _ _, fun a ha => by cases ha⟩
  refine .set_bind (.lift_bind (fun x _ => stop _ _) fun rows _ => .set_bind (.lift_bind (fun x _ => stop _ _) fun id _ =>
    .emit_bind ?_ (.pure ?_)))
  · exact fun x hx => ⟨1, Nat.le_refl _, (hk s id r.data).1, h1,
      fun h63 => Nat.le_trans (hk s id r.data).2 (Nat.add_le_add_left (h4 h63) _), fun a ha => by cases ha⟩
  · refine ⟨1, Nat.le_refl _, (hk s id r.data).1, h1,
      fun h63 => Nat.le_trans (hk s id r.data).2 (Nat.add_le_add_left (h4 h63) _), fun a ha => ?_⟩
    cases ha
    exact ⟨rfl, rfl, rfl, h3⟩

theorem wholeChunk_facts {b : BinaryBuffer} (hb : b.Typed) {c : BinaryChunk} (h : wholeChunk b = .ok c) :
    c.endPos ≤ b.offsets.length ∧ c.size < 2 ^ 32 ∧ b.offsets.length = b.len + 1 := by
  unfold wholeChunk at h
  split at h
  · rename_i last hl
    cases h
    have hm := List.mem_of_getLast? hl
    have := List.length_pos_of_mem hm
    exact ⟨by simp, hb _ hm, by simp only [BinaryBuffer.len]; omega⟩
  · cases h

theorem writeRemaining_costs (hk : Measures k cnt vol) (p : Profile) (e : Encoder) (he : e.remaining.Typed) (s : S) :
    Costs (writeRemainingC p k) (e, s) fun r st n => ∃ j ≤ 1, cnt st.2 = cnt s + j ∧
      n ≤ 26 * e.remaining.weight + 702 ∧ (e.remaining.offsets.length < 2 ^ 63 → vol st.2 ≤ vol s + n) ∧
      ∀ a, r = .ok a → j = 1 ∧ st.1.remaining = e.remaining ∧ st.1.minBlockSize = e.minBlockSize := by
  refine .get_bind (.lift_bind (fun x hx => ⟨0, by omega, rfl, Nat.zero_le _, fun _ => Nat.le_refl _, fun a ha => by cases ha⟩)
    fun c hc => ?_)
  obtain ⟨c1, c2, c3⟩ := wholeChunk_facts he hc
  refine (writeBlock_costs hk p e.remaining he c c1 c2 0 e s).mono ?_
  rintro r st n ⟨j, h1, h2, h3, h4, h5⟩
  refine ⟨j, h1, h2, ?_, h4, fun a ha => ⟨(h5 a ha).1, (h5 a ha).2.1, (h5 a ha).2.2.1⟩⟩
  simp only [BinaryBuffer.weight]
  omega

/-- What is said of the encoder after a call that returns: what it holds back is typed and not too long. -/
def Kept (e e' : Encoder) (buf : BinaryBuffer) : Prop :=
  e'.minBlockSize = e.minBlockSize ∧ (e.remaining.Typed → e'.remaining.Typed) ∧
  e'.remaining.offsets.length ≤ max 1 e.remaining.offsets.length + buf.offsets.length

theorem appendFrom_offsets {p : Profile} {b buf b' : BinaryBuffer} {i j vp pos : Nat}
    (h : b.appendFrom p buf i j vp = .ok (b', pos)) : b'.offsets.length ≤ b.offsets.length + buf.offsets.length := by
  simp only [BinaryBuffer.appendFrom] at h
  rcases h1 : index buf.offsets i with x | so
  · rw [h1] at h; cases h
  rw [h1, ok_bind] at h
  rcases h2 : index buf.offsets j with x | eo
  · rw [h2] at h; cases h
  rw [h2, ok_bind] at h
  have hj := (index_mem h2).2
  rcases h3 : p.sub 64 j i with x | n
  · rw [h3] at h; cases h
  rw [h3, ok_bind] at h
  obtain ⟨o1, o2⟩ := BinaryBuffer.steps_appendFromOffsetsC p buf (j - i) i ((b.offsets.getLast?).getD 0)
  rcases h4 : BinaryBuffer.appendFromOffsets p buf (j - i) i ((b.offsets.getLast?).getD 0) with x | l
  · rw [h4] at h; cases h
  rw [h4, ok_bind] at h
  obtain ⟨o3, o4⟩ := o2 l h4
  rcases h5 : slice buf.data so eo with x | chunk
  · rw [h5] at h; cases h
  rw [h5, ok_bind] at h
  split at h
  · rcases hv : validityAppendFrom b.validity buf.validity vp n with x | ⟨d, pos⟩
    · rw [hv] at h; cases h
    rw [hv, ok_bind] at h
    cases h
    simp only [List.length_append]
    omega
  · cases h

theorem encodeLoop_costs (hk : Measures k cnt vol) (p : Profile) (buf : BinaryBuffer) (hb : buf.Typed) (fuel : Nat) :
    ∀ (bp vp : Nat) (e : Encoder) (s : S),
    Costs (encodeLoopC p k buf fuel bp vp) (e, s) fun r st n => ∃ j, cnt st.2 = cnt s + j ∧
      n ≤ 26 * e.remaining.weight + j * (buf.data.length + 3 * buf.offsets.length + 701) +
        (27 * buf.data.length + 29 * buf.offsets.length + 701) + 27 * (bitsOf buf.validity - vp) ∧
      (buf.offsets.length < 2 ^ 63 → vol st.2 ≤ vol s + n) ∧
      ∀ a, r = .ok a → Kept e st.1 buf ∧
        n + 26 * st.1.remaining.weight ≤ 26 * e.remaining.weight + j * (buf.data.length + 3 * buf.offsets.length + 701) +
          (27 * buf.data.length + 29 * buf.offsets.length + 701) + 27 * (bitsOf buf.validity - vp) := by
  induction fuel with
  | zero => exact fun bp vp e s => ⟨0, rfl, Nat.zero_le _, fun _ => Nat.le_refl _, fun a ha => by cases ha⟩
  | succ fuel ih =>
    intro bp vp e s
    rw [encodeLoopC]
    split
    · obtain ⟨c1, c2⟩ := steps_chunkC p buf bp e.minBlockSize hb
      refine .tick_bind (.get_bind (.counted_bind (fun x hx => ⟨0, rfl, ?_, fun _ => ?_, fun a ha => by cases ha⟩) fun c hc => ?_))
      · (try simp only [id_eq]); omega
      · (try simp only [id_eq]); omega
      rw [result_chunkC] at hc
      obtain ⟨d1, d2, d3⟩ := c2 c hc
      generalize (chunkC p buf bp e.minBlockSize).steps = n1 at c1
      split
      · obtain ⟨h1, h2⟩ := BinaryBuffer.steps_appendFromC p e.remaining buf c.startPos c.endPos vp
        refine .counted_bind (fun x hx => ⟨0, rfl, ?_, fun _ => ?_, fun a ha => by cases ha⟩) fun r hr => .set ?_
        · omega
        · simp only [leaving]; omega
        rw [BinaryBuffer.result_appendFromC] at hr
        obtain ⟨bits, k1, k2, k3, k4, _⟩ := h2 r.1 r.2 hr
        generalize (e.remaining.appendFromC p buf c.startPos c.endPos vp).steps = n2 at *
        refine ⟨0, rfl, by omega, fun _ => by dsimp only; omega, fun a _ => ⟨⟨rfl, k4, ?_⟩, ?_⟩⟩
        · have := appendFrom_offsets hr
          dsimp only
          omega
        · dsimp only
          omega
      · refine .bind ((writeBlock_costs hk p buf hb c d2 d3 vp e s).mono ?_)
        rintro r st n ⟨j, h1, h2, h3, h4, h5⟩
        refine ⟨fun x hx => ⟨j, h2, ?_, fun h63 => ?_, fun a ha => by cases ha⟩, fun a ha => ?_⟩
        · rcases (by omega : j = 0 ∨ j = 1) with rfl | rfl <;> omega
        · have := h4 h63; omega
        obtain ⟨rfl, g1, g2, bits, g3, g4⟩ := h5 a ha
        obtain ⟨e', s'⟩ := st
        dsimp only at g1 g2 h2
        refine (ih c.endPos a.lastValidityPos e' s').mono ?_
        rintro r' st' n' ⟨j', q1, q2, q3, q4⟩
        rw [g1] at q2 q4
        refine ⟨j' + 1, by omega, ?_, fun h63 => ?_, fun a' ha' => ?_⟩
        · rw [Nat.succ_mul j']; omega
        · have := h4 h63; have := q3 h63; dsimp only at *; omega
        · obtain ⟨⟨w1, w2, w3⟩, w4⟩ := q4 a' ha'
          rw [g1] at w2 w3
          exact ⟨⟨by rw [w1, g2], w2, w3⟩, by rw [Nat.succ_mul j']; omega⟩
    · refine .pure ⟨0, rfl, by omega, fun _ => Nat.le_refl _, fun a _ => ⟨⟨rfl, id, ?_⟩, ?_⟩⟩
      · dsimp only; omega
      · dsimp only; omega

theorem clear_facts (b : BinaryBuffer) : b.clear.weight = 0 ∧ (b.Typed → b.clear.Typed) ∧ b.clear.offsets.length ≤ 1 := by
  refine ⟨?_, fun h o ho => h o (List.mem_of_mem_take ho), by simp [BinaryBuffer.clear]; omega⟩
  have : (b.offsets.take 1).length ≤ 1 := by simp; omega
  rcases b with ⟨d, os, _ | v⟩ <;> simp only [BinaryBuffer.weight, BinaryBuffer.clear, BinaryBuffer.len, bitsOf, Option.map, Option.getD,
    Bitmap.clear, List.length_nil] at * <;> omega

set_option maxRecDepth 8000 in
/-- One call. -/
theorem encode_costs (hk : Measures k cnt vol) (p : Profile) (buf : BinaryBuffer) (hb : buf.Typed) (e : Encoder)
    (he : e.remaining.Typed) (s : S) :
    Costs (encodeC p k buf) (e, s) fun r st n => ∃ j, cnt st.2 = cnt s + j ∧
      n ≤ 26 * e.remaining.weight + 57 * buf.weight + 1460 + j * (3 * buf.weight + 704) ∧
      (max 1 e.remaining.offsets.length + buf.offsets.length < 2 ^ 63 → vol st.2 ≤ vol s + n) ∧
      ∀ a, r = .ok a → Kept e st.1 buf ∧
        n + 26 * st.1.remaining.weight ≤ 26 * e.remaining.weight + 57 * buf.weight + 1460 + j * (3 * buf.weight + 704) := by
  have hN : buf.offsets.length ≤ buf.len + 1 := by simp only [BinaryBuffer.len]; omega
  have hw : buf.weight = buf.data.length + buf.len + bitsOf buf.validity := rfl
  have hA : ∀ j, j * (buf.data.length + 3 * buf.offsets.length + 701) ≤ j * (3 * buf.weight + 704) :=
    fun j => Nat.mul_le_mul_left j (by omega)
  refine .get_bind ?_
  split
  · rename_i hl
    have hlen : 1 ≤ e.remaining.offsets.length := by simp only [BinaryBuffer.len] at hl; omega
    refine .lift_bind (fun x _ => ⟨0, rfl, by omega, fun _ => Nat.le_refl _, fun a ha => by cases ha⟩) fun room _ => ?_
    obtain ⟨c1, c2⟩ := steps_chunkC p buf 0 room hb
    refine .counted_bind (fun x hx => ⟨0, rfl, ?_, fun _ => ?_, fun a ha => by cases ha⟩) fun c hc => ?_
    · omega
    · (try simp only [id_eq]); omega
    rw [result_chunkC] at hc
    obtain ⟨d1, d2, d3⟩ := c2 c hc
    generalize (chunkC p buf 0 room).steps = n1 at c1
    obtain ⟨h1, h2⟩ := BinaryBuffer.steps_appendFromC p e.remaining buf c.startPos c.endPos 0
    refine .counted_bind (fun x hx => ⟨0, rfl, ?_, fun _ => ?_, fun a ha => by cases ha⟩) fun r hr => ?_
    · omega
    · simp only [leaving]; omega
    rw [BinaryBuffer.result_appendFromC] at hr
    obtain ⟨bits, k1, k2, k3, k4, _⟩ := h2 r.1 r.2 hr
    have hof := appendFrom_offsets hr
    generalize (e.remaining.appendFromC p buf c.startPos c.endPos 0).steps = n2 at *
    dsimp only
    refine .set_bind ?_
    split
    · refine .pure ⟨0, rfl, by omega, fun _ => by dsimp only; omega, fun a _ => ⟨⟨rfl, k4, ?_⟩, ?_⟩⟩
      · dsimp only; omega
      · dsimp only; omega
    · refine .bind ((writeRemaining_costs hk p { e with remaining := r.1 } (k4 he) s).mono ?_)
      rintro r' ⟨e1, s1⟩ n3 ⟨j, w1, w2, w3, w4, w5⟩
      dsimp only at w2 w3 w4 w5
      refine ⟨fun x hx => ⟨j, w2, ?_, fun h63 => ?_, fun a ha => by cases ha⟩, fun a ha => ?_⟩
      · rcases (by omega : j = 0 ∨ j = 1) with rfl | rfl <;> omega
      · have := w4 (by omega); dsimp only; omega
      obtain ⟨rfl, v1, v2⟩ := w5 a ha
      obtain ⟨z1, z2, z3⟩ := clear_facts e1.remaining
      refine .get_bind (.set_bind ((encodeLoop_costs hk p buf hb _ _ _ _ _).mono ?_))
      rintro r'' ⟨e2, s2⟩ n4 ⟨j', q1, q2, q3, q4⟩
      dsimp only at q1 q2 q3 q4
      rw [z1] at q2 q4
      have hj := hA j'
      refine ⟨j' + 1, by dsimp only; omega, ?_, fun h63 => ?_, fun a' ha' => ?_⟩
      · rw [Nat.succ_mul j']; omega
      · have := w4 (by omega); have := q3 (by omega); dsimp only; omega
      · obtain ⟨⟨y1, y2, y3⟩, y4⟩ := q4 a' ha'
        refine ⟨⟨by rw [y1]; exact v2, fun _ => y2 (z2 (by rw [v1]; exact k4 he)), by dsimp only at y3 ⊢; omega⟩, ?_⟩
        rw [Nat.succ_mul j']; dsimp only; omega
  · refine (encodeLoop_costs hk p buf hb _ 0 0 e s).mono ?_
    rintro r st n ⟨j, q1, q2, q3, q4⟩
    have hj := hA j
    refine ⟨j, q1, by omega, fun h63 => q3 (by omega), fun a ha => ⟨(q4 a ha).1, ?_⟩⟩
    have := (q4 a ha).2
    omega

theorem flush_costs (hk : Measures k cnt vol) (p : Profile) (e : Encoder) (he : e.remaining.Typed) (s : S) :
    Costs (flushC p k) (e, s) fun _ st n => (∃ j ≤ 1, cnt st.2 = cnt s + j) ∧
      n ≤ 26 * e.remaining.weight + 702 ∧ (e.remaining.offsets.length < 2 ^ 63 → vol st.2 ≤ vol s + n) := by
  refine .get_bind ?_
  split
  · refine .bind ((writeRemaining_costs hk p e he s).mono ?_)
    rintro r st n ⟨j, w1, w2, w3, w4, w5⟩
    exact ⟨fun x _ => ⟨⟨j, w1, w2⟩, w3, w4⟩, fun a _ => .pure ⟨⟨j, w1, w2⟩, w3, w4⟩⟩
  · exact .pure ⟨⟨0, by omega, rfl⟩, Nat.zero_le _, fun _ => Nat.le_refl _⟩

set_option maxRecDepth 8000 in
/-- A column, with no buffer heavier than `M`. -/
theorem encodeAll_costs (hk : Measures k cnt vol) (p : Profile) (M : Nat) (bufs : List BinaryBuffer) :
    (∀ b ∈ bufs, b.Typed ∧ b.weight ≤ M) → ∀ (e : Encoder), e.remaining.Typed → ∀ s : S,
    Costs (encodeAllC p k bufs) (e, s) fun r st n => ∃ j, cnt st.2 = cnt s + j ∧
      n ≤ 26 * e.remaining.weight + 57 * (bufs.map BinaryBuffer.weight).sum + 1460 * bufs.length + j * (3 * M + 704) ∧
      (max 1 e.remaining.offsets.length + (bufs.map fun b => b.offsets.length).sum < 2 ^ 63 → vol st.2 ≤ vol s + n) ∧
      ∀ a, r = .ok a → st.1.remaining.Typed ∧
        st.1.remaining.offsets.length ≤ max 1 e.remaining.offsets.length + (bufs.map fun b => b.offsets.length).sum ∧
        n + 26 * st.1.remaining.weight ≤
          26 * e.remaining.weight + 57 * (bufs.map BinaryBuffer.weight).sum + 1460 * bufs.length + j * (3 * M + 704) := by
  induction bufs with
  | nil => exact fun _ e he s => .pure ⟨0, rfl, Nat.zero_le _, fun _ => Nat.le_refl _, fun a _ => ⟨he, by dsimp only; simp; omega, by simp⟩⟩
  | cons b bs ih =>
    intro hbs e he s
    obtain ⟨hb, hbM⟩ := hbs b (by simp)
    have hA : ∀ j, j * (3 * b.weight + 704) ≤ j * (3 * M + 704) := fun j => Nat.mul_le_mul_left j (by omega)
    simp only [List.map_cons, List.sum_cons, List.length_cons]
    refine .bind ((encode_costs hk p b hb e he s).mono ?_)
    rintro r ⟨e1, s1⟩ n ⟨j, w1, w2, w3, w4⟩
    have hj := hA j
    dsimp only at w1 w2 w3 w4
    refine ⟨fun x _ => ⟨j, w1, by omega, fun h63 => w3 (by omega), fun a ha => by cases ha⟩, fun a ha => ?_⟩
    obtain ⟨⟨-, y2, y3⟩, y4⟩ := w4 a ha
    refine (ih (fun b' hb' => hbs b' (by simp [hb'])) e1 (y2 he) s1).mono ?_
    rintro r' ⟨e2, s2⟩ n' ⟨j', q1, q2, q3, q4⟩
    dsimp only at q1 q2 q3 q4
    refine ⟨j + j', by dsimp only; omega, by rw [Nat.add_mul]; omega, fun h63 => ?_, fun a' ha' => ?_⟩
    · have := w3 (by omega); have := q3 (by omega); dsimp only; omega
    · obtain ⟨g1, g2, g3⟩ := q4 a' ha'
      exact ⟨g1, by dsimp only; omega, by rw [Nat.add_mul]; dsimp only; omega⟩

set_option maxRecDepth 8000 in
theorem encodeColumn_costs (hk : Measures k cnt vol) (p : Profile) (M : Nat) (bufs : List BinaryBuffer)
    (hbs : ∀ b ∈ bufs, b.Typed ∧ b.weight ≤ M) (e : Encoder) (he : e.remaining.Typed) (s : S) :
    Costs (encodeColumnC p k bufs) (e, s) fun _ st n => ∃ j, cnt st.2 = cnt s + j ∧
      n ≤ 26 * e.remaining.weight + 57 * (bufs.map BinaryBuffer.weight).sum + 1460 * bufs.length + 702 + j * (3 * M + 704) ∧
      (max 1 e.remaining.offsets.length + (bufs.map fun b => b.offsets.length).sum < 2 ^ 63 → vol st.2 ≤ vol s + n) := by
  refine .bind ((encodeAll_costs hk p M bufs hbs e he s).mono ?_)
  rintro r ⟨e1, s1⟩ n ⟨j, w1, w2, w3, w4⟩
  dsimp only at w1 w2 w3 w4
  refine ⟨fun x _ => ⟨j, w1, by omega, w3⟩, fun a ha => ?_⟩
  obtain ⟨g1, g2, g3⟩ := w4 a ha
  refine (flush_costs hk p e1 g1 s1).mono ?_
  rintro r' ⟨e2, s2⟩ n' ⟨⟨j', q0, q1⟩, q2, q3⟩
  dsimp only at q1 q2 q3
  refine ⟨j + j', by dsimp only; omega, by rw [Nat.add_mul]; omega, fun h63 => ?_⟩
  have := w3 h63; have := q3 (by omega); dsimp only; omega

end BinaryEnc
end Meerkat

namespace Meerkat

/-- What packing the lengths costs when it succeeds, and where the width of the packed lengths is written. -/
theorem Offsets.steps_encodeC_exact (p : Profile) (src : List Nat) (dst : Bytes) (hsrc : ∀ x ∈ src, x < 2 ^ 32)
    (h63 : src.length < 2 ^ 63) (r) (h : encode p src dst = .ok r) :
    (encodeC p src dst).steps = 129 + 16 * (r.2.getD dst.length 0).toNat ∧ dst <+: r.2 := by
  simp only [encodeC]
  have hl : 1 ≤ src.length ∧ src.length ≤ 128 := by
    simp only [encode] at h
    rw [roundUp_128 p _ (by omega), ok_bind] at h
    simp only [numBits, resize_length] at h
    split at h
    · rename_i hb
      simp only [BLOCK_LEN] at hb
      omega
    · cases h
  obtain ⟨h1, h2⟩ := hl
  have hpad : Util.roundUptoPowerOf2 p src.length BLOCK_LEN = .ok 128 := by
    rw [roundUp_128 p _ (by omega)]
    congr 1
    omega
  have hw : width (resize src 128 0) ≤ 32 := by
    rw [width_le_iff]
    intro x hx
    simp only [resize, List.mem_append, List.mem_replicate] at hx
    rcases hx with hx | ⟨_, rfl⟩
    · exact hsrc x (List.mem_of_mem_take hx)
    · exact Nat.pow_pos (by omega)
  have hnb : numBits (resize src 128 0) = .ok (width (resize src 128 0)) := by
    simp only [numBits, resize_length]
    rw [if_pos (by rfl)]
    rfl
  have henc := encode_ok p src dst h1 h2
  rw [h] at henc
  cases henc
  have hres : resize src 128 0 = src ++ List.replicate (128 - src.length) 0 := by
    rw [resize, List.take_of_length_le h2]
  have hws : width (resize src 128 0) = width src := by rw [hres]; exact width_append_zeros src _
  rw [hws] at hw hnb
  have hc : Util.ceil8 (width src * 128) = 16 * width src := by
    simp only [Util.ceil8]
    rw [if_neg (by omega)]
    omega
  have hget : ((dst ++ offsetBytes src).getD dst.length 0).toNat = width src := by
    rw [List.getD_eq_getElem?_getD, List.getElem?_append_right (Nat.le_refl _), Nat.sub_self]
    simp only [offsetBytes, List.getElem?_cons_zero, Option.getD_some, UInt8.toNat_ofNat']
    exact Nat.mod_eq_of_lt (by omega)
  refine ⟨?_, List.prefix_append _ _⟩
  dsimp only
  rw [hget, Counted.steps_bind_ok (a := 128) (by simp [hpad]), Counted.steps_bind_ok (a := ()) (by simp),
    Counted.steps_bind_ok (a := width src) (by simp [hnb]), Counted.steps_bind_ok (a := ()) (by simp)]
  simp only [Counted.steps_lift, Counted.steps_ticks, Nat.zero_add, hc]
  rcases hd : compressChunks (width src) (chunks BLOCK_LEN (resize src 128 0))
      (resize (dst ++ [UInt8.ofNat (width src)]) ((dst ++ [UInt8.ofNat (width src)]).length + 16 * width src) 0)
      (dst ++ [UInt8.ofNat (width src)]).length with x | d
  · rw [Counted.steps_bind_error (e := x) (by simp)]
    simp only [Counted.steps_lift]
    omega
  · rw [Counted.steps_bind_ok (a := d) (by simp)]
    simp only [Counted.steps_lift, Counted.steps_pure]
    omega

theorem PrimitiveEnc.steps_encodeValidityC_exact (p : Profile) (v : Option Bitmap) (bp n : Nat) (be : Rle.Encoder) (r)
    (h : encodeValidity p v bp n be = .ok r) : (encodeValidityC p v bp n be).steps =
      if v.isSome then (r.1.lastValidityPos - bp) + 2 * r.2.1.length else 0 := by
  cases v with
  | none => simp [encodeValidityC]
  | some bm =>
    simp only [encodeValidity, Rle.Encoder.putFrom] at h
    rcases hl : be.clear.putFromLoop p bm bp n with x | ⟨e1, pos⟩
    · rw [hl] at h; cases h
    rw [hl, ok_bind] at h
    dsimp only at h
    rcases hf : e1.flush p with x | e2
    · rw [hf] at h; cases h
    rw [hf, ok_bind] at h
    cases h
    obtain ⟨k1, k2, k3, k4, k5⟩ := (Rle.Encoder.steps_putFromLoopC p be.clear bm bp n).2 e1 pos hl
    have hc2 : be.clear.encodedValues.length = 0 := rfl
    rw [hc2] at k5
    obtain ⟨g1, g2⟩ := Rle.Encoder.flush_grows hf
    have hs : (e1.flushC p).steps + e1.encodedValues.length = e2.encodedValues.length := by
      simp only [Rle.Encoder.flushC]
      rw [Counted.steps_bind_ok (a := e2) (by simp [hf]), Counted.steps_bind_ok (a := ()) (by simp)]
      simp only [Counted.steps_lift, Counted.steps_ticks, Counted.steps_pure, Nat.zero_add, Nat.add_zero]
      exact Nat.sub_add_cancel g1
    simp only [encodeValidityC]
    rw [Counted.steps_bind_ok (a := (e1, pos)) (by simp [hl]), Counted.steps_bind_ok (a := e2) (by simp [hf]),
      Counted.steps_bind_ok (a := ()) (by simp)]
    simp only [Counted.steps_ticks, Counted.steps_pure, Option.isSome_some, if_true]
    omega

namespace BinaryEnc

theorem steps_itemLensC_exact (p : Profile) (buf : BinaryBuffer) (k : Nat) : ∀ i l, itemLens p buf k i = .ok l →
    (itemLensC p buf k i).steps = k := by
  induction k with
  | zero => exact fun _ _ _ => rfl
  | succ k ih =>
    intro i l h
    simp only [itemLens] at h
    simp only [itemLensC, Counted.steps_tick_bind]
    rcases h1 : buf.itemLen p i with x | n
    · rw [h1] at h; cases h
    rw [h1, ok_bind] at h
    rcases h2 : itemLens p buf k (i + 1) with x | l'
    · rw [h2] at h; cases h
    rw [Counted.steps_bind_ok (a := n) (by simp), Counted.steps_bind_ok (a := l') (by rw [result_itemLensC, h2])]
    simp only [Counted.steps_lift, Counted.steps_pure, ih (i + 1) l' h2]
    omega

theorem steps_findPositionC_exact (p : Profile) (so ms : Nat) (os : List Nat) : ∀ pos r, findPosition p so ms os pos = .ok r →
    match r with
    | some (q, o) => pos + (findPositionC p so ms os pos).steps = q + 1 ∧ ∃ d, p.sub 32 o so = .ok d ∧ ms ≤ d
    | none => (findPositionC p so ms os pos).steps = os.length ∧ ∀ o ∈ os, ∀ d, p.sub 32 o so = .ok d → d < ms := by
  induction os with
  | nil => intro pos r h; cases h; exact ⟨rfl, by simp⟩
  | cons x os ih =>
    intro pos r h
    simp only [findPosition] at h
    simp only [findPositionC, Counted.steps_tick_bind]
    rcases hd : p.sub 32 x so with y | d
    · rw [hd] at h; cases h
    rw [hd, ok_bind] at h
    rw [Counted.steps_bind_ok (a := d) (by simp)]
    simp only [Counted.steps_lift, Nat.zero_add]
    split at h
    · rename_i hge
      cases h
      rw [if_pos hge]
      exact ⟨by simp, d, hd, hge⟩
    · rename_i hlt
      rw [if_neg hlt]
      have := ih (pos + 1) r h
      rcases r with _ | ⟨q, o⟩
      · refine ⟨by simp only [List.length_cons]; have := this.1; omega, fun o ho d' hd' => ?_⟩
        rcases List.mem_cons.mp ho with rfl | ho
        · rw [hd] at hd'; cases hd'; omega
        · exact this.2 o ho d' hd'
      · exact ⟨by have := this.1; omega, this.2⟩

end BinaryEnc
end Meerkat
