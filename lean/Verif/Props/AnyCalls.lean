import Verif.Props.Offered
import Verif.Props.Alike
import Verif.Props.Profiles
import Verif.Props.WithValidity

set_option autoImplicit false

/-!
# C72, C100, C109 for calls in any order

`encode` and `flush` in any order, by a caller that goes on whatever they return.
-/

namespace Meerkat
open Spec

/-- What the runs return, one after the other, when each is made whatever those before returned. -/
def Run.allResults {σ : Type} : List (Run σ Unit) → σ → List (Except Fault Unit)
  | [], _ => []
  | m :: ms, s => (m s).1 :: Run.allResults ms (m s).2

namespace AnyCalls

theorem agree {σ : Type} (ds rs : List (Run σ Unit)) (h : Matched RunAgree ds rs) : ∀ s,
    (∀ r ∈ Run.allResults ds s, r ≠ .error (.panic .overflow)) →
    Run.allResults rs s = Run.allResults ds s ∧ Run.regardless rs s = Run.regardless ds s := by
  revert h
  refine Matched.induct (P := fun ds rs => ∀ s, (∀ r ∈ Run.allResults ds s, r ≠ .error (.panic .overflow)) →
    Run.allResults rs s = Run.allResults ds s ∧ Run.regardless rs s = Run.regardless ds s) ?_ ?_ ds rs
  · exact fun _ _ => ⟨rfl, rfl⟩
  · intro d r ds rs hdr _ ih s hs
    have h1 : r s = d s := (hdr.or s).resolve_left (hs _ (by simp [Run.allResults]))
    simp only [Run.allResults, Run.regardless, h1]
    obtain ⟨h2, h3⟩ := ih (d s).2 (fun x hx => hs x (by simp [Run.allResults, hx]))
    exact ⟨by rw [h2], h3⟩

theorem alike {σ τ : Type} {R : σ → τ → Prop} (ms : List (Run σ Unit)) (ms' : List (Run τ Unit))
    (h : Matched (RunR R Eq) ms ms') : ∀ s t, R s t →
    Run.allResults ms s = Run.allResults ms' t ∧ R (Run.regardless ms s) (Run.regardless ms' t) := by
  revert h
  refine Matched.induct (P := fun ms ms' => ∀ s t, R s t →
    Run.allResults ms s = Run.allResults ms' t ∧ R (Run.regardless ms s) (Run.regardless ms' t)) ?_ ?_ ms ms'
  · exact fun _ _ h => ⟨rfl, h⟩
  · intro m m' ms ms' hm _ ih s t hR
    obtain ⟨h1, h2⟩ := hm s t hR
    obtain ⟨h3, h4⟩ := ih _ _ h2
    exact ⟨by simp only [Run.allResults, h1.to_eq, h3], h4⟩

theorem matched_map {α β γ δ : Type} {R : α → β → Prop} {Q : γ → δ → Prop} {f : α → γ} {g : β → δ}
    (hf : ∀ x y, R x y → Q (f x) (g y)) (xs : List α) (ys : List β) (h : Matched R xs ys) :
    Matched Q (xs.map f) (ys.map g) := by
  revert h
  refine Matched.induct (P := fun xs ys => Matched Q (xs.map f) (ys.map g)) .nil ?_ xs ys
  intro x y xs ys hxy _ ih
  exact .cons (hf x y hxy) ih

theorem matched_refl {α γ δ : Type} {Q : γ → δ → Prop} {f : α → γ} {g : α → δ}
    (hf : ∀ x, Q (f x) (g x)) : ∀ xs : List α, Matched Q (xs.map f) (xs.map g)
  | [] => .nil
  | x :: xs => .cons (hf x) (matched_refl hf xs)

end AnyCalls

/-- C72, primitive encoder, for calls in any order whatever they return: in any state and with any sink, if no call of a
debug build ends with the panic of an overflow check, the calls of the release build return the same and leave the same. -/
theorem C72_primitive_calls {α : Type} [Element α] {S : Type} (k : Sink S) (calls : List (EncCall (PrimitiveBuffer α)))
    (s : PrimitiveEnc.Encoder α × S)
    (h : ∀ r ∈ Run.allResults (calls.map (EncCall.onPrimitive .debug k)) s, r ≠ .error (.panic .overflow)) :
    Run.allResults (calls.map (EncCall.onPrimitive .release k)) s =
      Run.allResults (calls.map (EncCall.onPrimitive .debug k)) s ∧
    Run.regardless (calls.map (EncCall.onPrimitive .release k)) s =
      Run.regardless (calls.map (EncCall.onPrimitive .debug k)) s :=
  AnyCalls.agree _ _ (AnyCalls.matched_refl (fun c => by
    cases c with
    | encode b => exact PrimitiveEnc.agree_encode (.refl k) b
    | flush => exact PrimitiveEnc.agree_flush (.refl k)) calls) s h

/-- C72, binary encoder, for calls in any order. -/
theorem C72_binary_calls {S : Type} (k : Sink S) (calls : List (EncCall BinaryBuffer)) (s : BinaryEnc.Encoder × S)
    (h : ∀ r ∈ Run.allResults (calls.map (EncCall.onBinary .debug k)) s, r ≠ .error (.panic .overflow)) :
    Run.allResults (calls.map (EncCall.onBinary .release k)) s =
      Run.allResults (calls.map (EncCall.onBinary .debug k)) s ∧
    Run.regardless (calls.map (EncCall.onBinary .release k)) s =
      Run.regardless (calls.map (EncCall.onBinary .debug k)) s :=
  AnyCalls.agree _ _ (AnyCalls.matched_refl (fun c => by
    cases c with
    | encode b => exact BinaryEnc.agree_encode (.refl k) b
    | flush => exact BinaryEnc.agree_flush (.refl k)) calls) s h

/-- The two calls are the same method, and those of `encode` are given related buffers. -/
def EncCall.Alike {β γ : Type} (R : β → γ → Prop) : EncCall β → EncCall γ → Prop
  | .encode b, .encode b' => R b b'
  | .flush, .flush => True
  | _, _ => False

/-- C100, primitive encoder, for calls in any order whatever they return: buffers with the same validity and as many values
are encoded alike, even when the calls fail. -/
theorem C100_primitive_calls {α β : Type} [Element α] [Element β] (R : α → β → Prop)
    (hs : Element.size α = Element.size β) (p : Profile) (nullable : Bool) (m : Nat)
    (calls : List (EncCall (PrimitiveBuffer α))) (calls' : List (EncCall (PrimitiveBuffer β)))
    (h : Matched (EncCall.Alike fun b b' => Matched R b.values b'.values ∧ b.validity = b'.validity) calls calls') :
    let ms := calls.map (EncCall.onPrimitive p recorder)
    let ms' := calls'.map (EncCall.onPrimitive p recorder)
    let s := (PrimitiveEnc.Encoder.new m nullable, [])
    let s' := (PrimitiveEnc.Encoder.new m nullable, [])
    Run.allResults ms s = Run.allResults ms' s' ∧
    Matched (BlockAlike R Element.bytes Element.bytes) (Run.regardless ms s).2 (Run.regardless ms' s').2 ∧
    (Run.regardless ms s).2.map (fun b => (b.1, b.2.length)) =
      (Run.regardless ms' s').2.map (fun b => (b.1, b.2.length)) := by
  obtain ⟨h1, h2⟩ := AnyCalls.alike (R := PrimitiveEnc.States R) (calls.map (EncCall.onPrimitive p recorder))
    (calls'.map (EncCall.onPrimitive p recorder))
    (AnyCalls.matched_map (fun c c' hc => by
      cases c <;> cases c' <;> first | exact hc.elim | skip
      · exact PrimitiveEnc.encode_alike hs p ⟨hc.1, hc.2⟩
      · exact PrimitiveEnc.flush_alike hs p) _ _ h)
    (PrimitiveEnc.Encoder.new m nullable, []) (PrimitiveEnc.Encoder.new m nullable, [])
    ⟨⟨⟨.nil, rfl⟩, rfl, rfl, rfl⟩, .nil⟩
  exact ⟨h1, h2.2, BlockAlike.length (fun x y _ => by rw [Element.bytes_length, Element.bytes_length, hs]) _ _ h2.2⟩

/-- C100, binary encoder, for calls in any order: buffers with the same validity and offsets are encoded alike. -/
theorem C100_binary_calls (p : Profile) (nullable : Bool) (m : Nat) (calls calls' : List (EncCall BinaryBuffer))
    (h : Matched (EncCall.Alike fun b b' => b.data.length = b'.data.length ∧ b.offsets = b'.offsets ∧
      b.validity = b'.validity) calls calls') :
    let ms := calls.map (EncCall.onBinary p recorder)
    let ms' := calls'.map (EncCall.onBinary p recorder)
    let s := (BinaryEnc.Encoder.new m nullable, [])
    Run.allResults ms s = Run.allResults ms' s ∧
    Matched (BlockAlike (fun _ _ => True) (fun x => [x]) (fun x => [x])) (Run.regardless ms s).2 (Run.regardless ms' s).2 ∧
    (Run.regardless ms s).2.map (fun b => (b.1, b.2.length)) =
      (Run.regardless ms' s).2.map (fun b => (b.1, b.2.length)) := by
  obtain ⟨h1, h2⟩ := AnyCalls.alike (R := BinaryEnc.States) (calls.map (EncCall.onBinary p recorder))
    (calls'.map (EncCall.onBinary p recorder))
    (AnyCalls.matched_map (fun c c' hc => by
      cases c <;> cases c' <;> first | exact hc.elim | skip
      · exact BinaryEnc.encode_alike p ⟨⟨hc.1, by simp⟩, hc.2.1, hc.2.2⟩
      · exact BinaryEnc.flush_alike p) _ _ h)
    (BinaryEnc.Encoder.new m nullable, []) (BinaryEnc.Encoder.new m nullable, [])
    ⟨⟨⟨.nil, rfl, rfl⟩, rfl, rfl, rfl⟩, .nil⟩
  exact ⟨h1, h2.2, BlockAlike.length (fun x y _ => by simp) _ _ h2.2⟩

/-- Two values flushed twice, and two others: two blocks each, which differ and have the same row ids. -/
example :
    let run := fun vs : List UInt64 => (Run.regardless ([.encode { values := vs, validity := none }, .flush, .flush].map
      (EncCall.onPrimitive .debug recorder)) (PrimitiveEnc.Encoder.new 128 false, [])).2
    (run [1, 2]).length = 2 ∧ run [1, 2] ≠ run [3, 4] ∧ (run [1, 2]).map (·.1) = (run [3, 4]).map (·.1) := by
  decide +kernel

/-- The same method, given the rows as a nullable column and their values as one that is not. -/
def EncCall.PrimitiveWithoutNulls {α : Type} : EncCall (PrimitiveBuffer α) → EncCall (PrimitiveBuffer α) → Prop :=
  EncCall.Alike fun b b' => ∃ rows, (PrimitiveBuffer.new true).pushAll rows = .ok b ∧
    (PrimitiveBuffer.new false).pushAll (rows.filter Option.isSome) = .ok b'

/-- The same for binary columns. -/
def EncCall.BinaryWithoutNulls : EncCall BinaryBuffer → EncCall BinaryBuffer → Prop :=
  EncCall.Alike fun b b' => ∃ rows, (BinaryBuffer.new true).pushAll rows = .ok b ∧
    (BinaryBuffer.new false).pushAll (rows.filter Option.isSome) = .ok b'

/-- C109 as far as it holds, primitive encoder, for `encode` and `flush` in any order: when the calls for a nullable column
return, those for the column of its values return too, and there are as many blocks; each has the bytes of the other one,
followed by the validity, and no smaller a row id. -/
theorem C109_primitive_calls_partial {α : Type} [Element α] (p : Profile) (m : Nat) (hm : 0 < m)
    (cs cs' : List (EncCall (PrimitiveBuffer α))) (h : Matched EncCall.PrimitiveWithoutNulls cs cs') (e blocks)
    (hrun : PrimitiveEnc.calls p recorder cs (PrimitiveEnc.Encoder.new m true, []) = (.ok (), (e, blocks))) :
    ∃ e' blocks', PrimitiveEnc.calls p recorder cs' (PrimitiveEnc.Encoder.new m false, []) = (.ok (), (e', blocks')) ∧
      Matched (WithValidity false) blocks blocks' := by
  have key : RunI (PrimitiveEnc.StatesV false m) (PrimitiveEnc.StatesV false m) (fun _ _ => True)
      (PrimitiveEnc.calls (α := α) p recorder cs) (PrimitiveEnc.calls p recorder cs') := by
    clear hrun
    revert h
    refine Matched.induct (P := fun cs cs' => RunI (PrimitiveEnc.StatesV false m) (PrimitiveEnc.StatesV false m) (fun _ _ => True)
      (PrimitiveEnc.calls (α := α) p recorder cs) (PrimitiveEnc.calls p recorder cs')) ?_ ?_ cs cs'
    · exact .pure trivial
    · intro x y xs ys hxy _ ih
      match x, y, hxy with
      | .encode b, .encode b', ⟨rows, h1, h2⟩ =>
        obtain ⟨b2, h3, h4⟩ := PrimitiveEnc.pushAll_without false rows (nomatch ·) (.new true) (.new false) b
          ⟨rfl, rfl, (nomatch ·)⟩ h1
        rw [h2] at h3
        cases h3
        exact .bind (PrimitiveEnc.encode_without m hm p h4) fun _ _ _ => ih
      | .flush, .flush, _ => exact .bind (PrimitiveEnc.flush_without m p) fun _ _ _ => ih
  obtain ⟨_, ⟨e', blocks'⟩, h3, _, h4⟩ := key (PrimitiveEnc.Encoder.new m true, []) (PrimitiveEnc.Encoder.new m false, [])
    ⟨⟨⟨rfl, rfl, (nomatch ·)⟩, rfl, rfl, Nat.le_refl _⟩, .nil⟩ () _ hrun
  exact ⟨e', blocks', h3, h4.2⟩

/-- C109 as far as it holds, binary encoder, for calls in any order. -/
theorem C109_binary_calls_partial (p : Profile) (m : Nat) (hm : 0 < m)
    (cs cs' : List (EncCall BinaryBuffer)) (h : Matched EncCall.BinaryWithoutNulls cs cs') (e blocks)
    (hrun : BinaryEnc.calls p recorder cs (BinaryEnc.Encoder.new m true, []) = (.ok (), (e, blocks))) :
    ∃ e' blocks', BinaryEnc.calls p recorder cs' (BinaryEnc.Encoder.new m false, []) = (.ok (), (e', blocks')) ∧
      Matched (WithValidity false) blocks blocks' := by
  have key : RunI (BinaryEnc.StatesV false m 0) (BinaryEnc.StatesV false m 0) (fun _ _ => True)
      (BinaryEnc.calls p recorder cs) (BinaryEnc.calls p recorder cs') := by
    clear hrun
    revert h
    refine Matched.induct (P := fun cs cs' => RunI (BinaryEnc.StatesV false m 0) (BinaryEnc.StatesV false m 0) (fun _ _ => True)
      (BinaryEnc.calls p recorder cs) (BinaryEnc.calls p recorder cs')) ?_ ?_ cs cs'
    · exact .pure trivial
    · intro x y xs ys hxy _ ih
      match x, y, hxy with
      | .encode b, .encode b', ⟨rows, h1, h2⟩ =>
        obtain ⟨b2, h3, h4⟩ := BinaryEnc.pushAll_without false rows (nomatch ·) (.new true) (.new false) b
          ⟨rfl, rfl, rfl, (nomatch ·)⟩ h1
        rw [h2] at h3
        cases h3
        exact .bind (BinaryEnc.encode_without m hm p h4) fun _ _ _ => ih
      | .flush, .flush, _ => exact .bind (BinaryEnc.flush_without m p) fun _ _ _ => ih
  obtain ⟨_, ⟨e', blocks'⟩, h3, _, h4⟩ := key (BinaryEnc.Encoder.new m true, []) (BinaryEnc.Encoder.new m false, [])
    ⟨⟨⟨rfl, rfl, rfl, (nomatch ·)⟩, rfl, rfl, Nat.le_refl _, Nat.zero_le _⟩, .nil⟩ () _ hrun
  exact ⟨e', blocks', h3, h4.2⟩

/-- Two buffers with a flush between them, nullable and not. -/
example :
    (do let b ← (PrimitiveBuffer.new true : PrimitiveBuffer Int32).pushAll [some 1, none, some 2]
        let c ← (PrimitiveBuffer.new true : PrimitiveBuffer Int32).pushAll [none, some 3]
        return (PrimitiveEnc.calls .debug recorder [.encode b, .flush, .encode c, .flush]
          (PrimitiveEnc.Encoder.new 16 true, [])).2.2) =
      .ok [(2, [8, 1, 0, 0, 0, 2, 0, 0, 0, 3, 5]), (7, [12, 1, 0, 0, 0, 2, 0, 0, 0, 3, 0, 0, 0, 3, 21])] ∧
    (do let b ← (PrimitiveBuffer.new false : PrimitiveBuffer Int32).pushAll [some 1, some 2]
        let c ← (PrimitiveBuffer.new false : PrimitiveBuffer Int32).pushAll [some 3]
        return (PrimitiveEnc.calls .debug recorder [.encode b, .flush, .encode c, .flush]
          (PrimitiveEnc.Encoder.new 16 false, [])).2.2) =
      .ok [(1, [8, 1, 0, 0, 0, 2, 0, 0, 0]), (4, [12, 1, 0, 0, 0, 2, 0, 0, 0, 3, 0, 0, 0])] := by
  decide +kernel

end Meerkat
