import Verif.Props.Reflush
import Verif.Spec.Calls

set_option autoImplicit false

/-! # C71: any calls after `flush`, given to any sink -/

namespace Meerkat
open Spec

namespace PrimitiveEnc
variable {α : Type} [Element α]

theorem calls_shift (p : Profile) (cs : List (EncCall (PrimitiveBuffer α))) {d : Nat} : ∀ {e e' : Encoder α},
    Ahead d e e' → ShiftAt Encoder.numRows (Ahead d) d (calls p recorder cs) (calls p recorder cs) e e' := by
  induction cs with
  | nil => intro e e' h; exact .pure _ h
  | cons c cs ih =>
    intro e e' h
    cases c with
    | encode b => exact .bind (encode_shift p b h) fun _ _ _ _ _ hR => ih hR
    | flush => exact .bind (flush_shift p h) fun _ _ _ _ _ hR => ih hR

theorem calls_follow {S : Type} (p : Profile) (k : Sink S) (cs : List (EncCall (PrimitiveBuffer α))) :
    Follows k (calls p k cs) (calls p recorder cs) := by
  induction cs with
  | nil => exact .pure _
  | cons c cs ih =>
    cases c with
    | encode b => exact .bind (encode_follows _ _ _) fun _ => ih
    | flush => exact .bind (flush_follows _ _) fun _ => ih

end PrimitiveEnc

namespace BinaryEnc

theorem calls_shift (p : Profile) (cs : List (EncCall BinaryBuffer)) {d : Nat} : ∀ {e e' : Encoder},
    Ahead d e e' → ShiftAt Encoder.numRows (Ahead d) d (calls p recorder cs) (calls p recorder cs) e e' := by
  induction cs with
  | nil => intro e e' h; exact .pure _ h
  | cons c cs ih =>
    intro e e' h
    cases c with
    | encode b => exact .bind (encode_shift p b h) fun _ _ _ _ _ hR => ih hR
    | flush => exact .bind (flush_shift p h) fun _ _ _ _ _ hR => ih hR

theorem calls_follow {S : Type} (p : Profile) (k : Sink S) (cs : List (EncCall BinaryBuffer)) :
    Follows k (calls p k cs) (calls p recorder cs) := by
  induction cs with
  | nil => exact .pure _
  | cons c cs ih =>
    cases c with
    | encode b => exact .bind (encode_follows _ _ _) fun _ => ih
    | flush => exact .bind (flush_follows _ _) fun _ => ih

end BinaryEnc

/-- What the calls that end with `r` after offering `blocks` do when `d` more rows were counted before them: the sink is
offered the same blocks with row ids `d` larger, up to the first that it refuses, and the calls end as they would have; or the
count of rows overflows on the way, which is a panic, and the sink is offered only the blocks before. -/
def MovedOn {E S : Type} (k : Sink S) (m : Run (E × S) Unit) (e : E) (d : Nat) (r : Except Fault Unit)
    (blocks : List (Nat × Bytes)) (overflows : Prop) : Prop :=
  (∀ s, ∃ e1, m (e, s) = match feed k s (shiftIds d blocks) with
    | (.ok (), s') => (r, (e1, s'))
    | (.error f, s') => (.error f, (e1, s'))) ∨
  overflows ∧ ∃ before, (∃ x, before ++ [x] <+: blocks) ∧ ∀ s, ∃ e1, m (e, s) = match feed k s (shiftIds d before) with
    | (.ok (), s') => (.error (.panic .expect), (e1, s'))
    | (.error f, s') => (.error f, (e1, s'))

theorem MovedOn.of_shift {E S : Type} {rows : E → Nat} {Rel : E → E → Prop} {d : Nat} {k : Sink S}
    {m : Run (E × List (Nat × Bytes)) Unit} {mk : Run (E × S) Unit} {e e' e2 : E} {r : Except Fault Unit}
    {blocks : List (Nat × Bytes)} (h : ShiftAt rows Rel d m m e e') (hm : m (e, []) = (r, (e2, blocks)))
    (hk : Follows k mk m) : MovedOn k mk e' d r blocks (2 ^ 32 ≤ rows e2 + d) := by
  obtain ⟨r1, e1, bs1, h1, -, -, h4⟩ := h
  have h0 := h1 []
  rw [hm] at h0
  simp only [List.nil_append, Prod.mk.injEq] at h0
  obtain ⟨rfl, rfl, rfl⟩ := h0
  obtain ⟨bs, r', e3, g1, g2⟩ := hk e'
  have use : ∀ (q : Except Fault Unit) (x : E) (bs' : List (Nat × Bytes)), (∀ l, m (e', l) = (q, (x, l ++ bs'))) →
      ∀ s, ∃ e1, mk (e', s) = match feed k s bs' with
        | (.ok (), s') => (q, (e1, s'))
        | (.error f, s') => (.error f, (e1, s')) := by
    intro q x bs' hq s
    have h0 := g1 []
    rw [hq []] at h0
    simp only [List.nil_append, Prod.mk.injEq] at h0
    obtain ⟨rfl, rfl, rfl⟩ := h0
    have g2 := g2 s
    rcases hf : feed k s bs' with ⟨f | u, s'⟩
    · rw [hf] at g2
      exact g2
    · rw [hf] at g2
      exact ⟨x, g2⟩
  rcases h4 with ⟨x, k1, -⟩ | ⟨x, bs2, k1, k2, k3⟩
  · exact .inl (use r x _ k1)
  · exact .inr ⟨k3, bs2, k2, use _ x _ k1⟩

/-- C71, primitive encoder, exactly, for any calls after a `flush` that returned and any sink: the sink is offered, block for
block, what it would have been offered without that `flush`, the rows it wrote among them, with the row ids moved on by
their number; unless the count of rows overflows. -/
theorem C71_primitive_calls_exact {α : Type} [Element α] {S : Type} (p : Profile) (k : Sink S)
    (e e0 e2 : PrimitiveEnc.Encoder α) (hP : PrimitiveEnc.SizeOk e) (cs : List (EncCall (PrimitiveBuffer α)))
    (l l' blocks : List (Nat × Bytes)) (r : Except Fault Unit)
    (hf : PrimitiveEnc.flush p recorder (e, l) = (.ok (), (e0, l')))
    (h : PrimitiveEnc.calls p recorder cs (e, []) = (r, (e2, blocks))) :
    let d := e0.numRows - e.numRows
    MovedOn k (PrimitiveEnc.calls p k cs) e0 d r blocks (2 ^ 32 ≤ e2.numRows + d) :=
  .of_shift (PrimitiveEnc.calls_shift p cs (PrimitiveEnc.flush_ahead hP hf).2) h (PrimitiveEnc.calls_follow p k cs)

/-- C71, binary encoder, exactly, for any calls and any sink. -/
theorem C71_binary_calls_exact {S : Type} (p : Profile) (k : Sink S) (e e0 e2 : BinaryEnc.Encoder)
    (cs : List (EncCall BinaryBuffer)) (l l' blocks : List (Nat × Bytes)) (r : Except Fault Unit)
    (hf : BinaryEnc.flush p recorder (e, l) = (.ok (), (e0, l')))
    (h : BinaryEnc.calls p recorder cs (e, []) = (r, (e2, blocks))) :
    let d := e0.numRows - e.numRows
    MovedOn k (BinaryEnc.calls p k cs) e0 d r blocks (2 ^ 32 ≤ e2.numRows + d) :=
  .of_shift (BinaryEnc.calls_shift p cs (BinaryEnc.flush_ahead hf).2) h (BinaryEnc.calls_follow p k cs)

/-- A column of two values, flushed, then flushed and given another value and flushed: the first two are written three
times, with the row ids 1, 3 and 6. Without the first flush they would be 1 and 4. -/
example (p : Profile) : ∃ b c, (BinaryBuffer.new false).pushAll [some [1], some [2]] = .ok b ∧
    (BinaryBuffer.new false).pushAll [some [3]] = .ok c ∧
    ((do BinaryEnc.encodeColumn p recorder [b]; BinaryEnc.calls p recorder [.flush, .encode c, .flush])
      (BinaryEnc.Encoder.new 128 false, [])).2.2.map Prod.fst = [1, 3, 6] ∧
    ((do BinaryEnc.encode p recorder b; BinaryEnc.calls p recorder [.flush, .encode c, .flush])
      (BinaryEnc.Encoder.new 128 false, [])).2.2.map Prod.fst = [1, 4] :=
  ⟨_, _, BinaryBuffer.new_pushAll _ _ (.inr (by decide +kernel)) (by decide +kernel),
    BinaryBuffer.new_pushAll _ _ (.inr (by decide +kernel)) (by decide +kernel), by cases p <;> decide +kernel,
    by cases p <;> decide +kernel⟩

end Meerkat
