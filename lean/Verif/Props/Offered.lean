import Verif.Proofs.Offered
import Verif.Props.EncoderSink
import Verif.Spec.Calls

set_option autoImplicit false

/-!
# C57, C39: the row ids offered to any sink

A caller that goes on after errors and panics, with a sink that may refuse any block.
-/

namespace Meerkat
open Spec

/-- The runs one after the other, whatever they return. -/
def Run.regardless {σ : Type} : List (Run σ Unit) → σ → σ
  | [], s => s
  | m :: ms, s => Run.regardless ms (m s).2

/-- The call of the primitive encoder. -/
def EncCall.onPrimitive {α : Type} [Element α] {S : Type} (p : Profile) (k : Sink S) :
    EncCall (PrimitiveBuffer α) → Run (PrimitiveEnc.Encoder α × S) Unit
  | .encode b => PrimitiveEnc.encode p k b
  | .flush => PrimitiveEnc.flush p k

/-- The call of the binary encoder. -/
def EncCall.onBinary {S : Type} (p : Profile) (k : Sink S) : EncCall BinaryBuffer → Run (BinaryEnc.Encoder × S) Unit
  | .encode b => BinaryEnc.encode p k b
  | .flush => BinaryEnc.flush p k

theorem OffersAt.regardless {E S : Type} {rows : E → Nat} {P : E → Prop}
    (ms : List (Run (E × S × List (Nat × Bytes)) Unit))
    (hms : ∀ m ∈ ms, ∀ e, rows e < 2 ^ 32 → P e → OffersAt rows P m e) :
    ∀ (e : E) (x : S × List (Nat × Bytes)), rows e < 2 ^ 32 → P e → ∃ cs bs,
      (Run.regardless ms (e, x)).2.2 = x.2 ++ bs ∧ bs.map (·.1) = countIds (rows e) cs ∧ (∀ c ∈ cs, 1 ≤ c) ∧
      rows (Run.regardless ms (e, x)).1 = rows e + cs.sum ∧ rows (Run.regardless ms (e, x)).1 < 2 ^ 32 := by
  induction ms with
  | nil => exact fun e x he _ => ⟨[], [], by simp [Run.regardless], rfl, by simp, by simp [Run.regardless], he⟩
  | cons m ms ih =>
    intro e x he hP
    obtain ⟨cs, bs, h1, h2, h3, h4, h5, h6⟩ := hms m (by simp) e he hP x
    rw [Run.regardless]
    rcases hm : m (e, x) with ⟨r, e', x'⟩
    rw [hm] at h1 h4 h5 h6
    dsimp only at h1 h4 h5 h6
    obtain ⟨cs', bs', k1, k2, k3, k4, k5⟩ := ih (fun m' hm' => hms m' (by simp [hm'])) e' x' h5 h6
    refine ⟨cs ++ cs', bs ++ bs', by rw [k1, h1, List.append_assoc], ?_, ?_, ?_, k5⟩
    · rw [List.map_append, h2, k2, countIds_append, h4]
    · intro c hc
      rcases List.mem_append.mp hc with h | h
      · exact h3 c h
      · exact k3 c h
    · rw [k4, h4, List.sum_append, Nat.add_assoc]

/-- C57 and C39, primitive encoder: whatever calls are made, in any order and whatever they return, and whatever
the sink does with the blocks, the row ids offered to it are running totals of row counts, none of them 0, and
so strictly increase; a block is never offered again under the same id. -/
theorem C57_primitive_offered_increase {α : Type} [Element α] {S : Type} (p : Profile) (m : Nat) (hm : 0 < m)
    (hm64 : m < 2 ^ 64) (nullable : Bool) (k : Sink S) (s : S) (calls : List (EncCall (PrimitiveBuffer α))) :
    let after := Run.regardless (calls.map (EncCall.onPrimitive p (watched k))) (PrimitiveEnc.Encoder.new m nullable, (s, []))
    (after.2.2.map (·.1)).Pairwise (· < ·) ∧
    ∃ cs, after.2.2.map (·.1) = countIds 0 cs ∧ (∀ c ∈ cs, 1 ≤ c) ∧ after.1.numRows = cs.sum ∧ cs.sum < 2 ^ 32 := by
  obtain ⟨cs, bs, h1, h2, h3, h4, h5⟩ := OffersAt.regardless (P := PrimitiveEnc.SizeOk (α := α))
    (rows := PrimitiveEnc.Encoder.numRows) (calls.map (EncCall.onPrimitive p (watched k)))
    (fun run hrun e he hP => by
      obtain ⟨c, -, rfl⟩ := List.mem_map.1 hrun
      cases c with
      | encode b => exact PrimitiveEnc.encode_offers p b e he hP
      | flush => exact PrimitiveEnc.flush_offers p e he hP)
    (PrimitiveEnc.Encoder.new m nullable) (s, []) (Nat.two_pow_pos 32) ⟨hm, hm64⟩
  rw [List.nil_append] at h1
  have h0 : (PrimitiveEnc.Encoder.new (α := α) m nullable).numRows = 0 := rfl
  rw [h0] at h2 h4
  rw [Nat.zero_add] at h4
  dsimp only
  rw [h1, h2]
  exact ⟨countIds_sorted 0 cs h3, cs, rfl, h3, h4, by rw [← h4]; exact h5⟩

/-- C57 and C39, binary encoder. -/
theorem C57_binary_offered_increase {S : Type} (p : Profile) (m : Nat) (nullable : Bool) (k : Sink S) (s : S)
    (calls : List (EncCall BinaryBuffer)) :
    let after := Run.regardless (calls.map (EncCall.onBinary p (watched k))) (BinaryEnc.Encoder.new m nullable, (s, []))
    (after.2.2.map (·.1)).Pairwise (· < ·) ∧
    ∃ cs, after.2.2.map (·.1) = countIds 0 cs ∧ (∀ c ∈ cs, 1 ≤ c) ∧ after.1.numRows = cs.sum ∧ cs.sum < 2 ^ 32 := by
  obtain ⟨cs, bs, h1, h2, h3, h4, h5⟩ := OffersAt.regardless (P := fun _ => True)
    (rows := BinaryEnc.Encoder.numRows) (calls.map (EncCall.onBinary p (watched k)))
    (fun run hrun e he _ => by
      obtain ⟨c, -, rfl⟩ := List.mem_map.1 hrun
      cases c with
      | encode b => exact BinaryEnc.encode_offers p b e he
      | flush => exact BinaryEnc.flush_offers p e he)
    (BinaryEnc.Encoder.new m nullable) (s, []) (Nat.two_pow_pos 32) trivial
  rw [List.nil_append] at h1
  have h0 : (BinaryEnc.Encoder.new m nullable).numRows = 0 := rfl
  rw [h0] at h2 h4
  rw [Nat.zero_add] at h4
  dsimp only
  rw [h1, h2]
  exact ⟨countIds_sorted 0 cs h3, cs, rfl, h3, h4, by rw [← h4]; exact h5⟩

/-- A sink that refuses every block is offered the rows held back again and again, each time as new rows. -/
example : (Run.regardless ([.encode { values := [1, 2], validity := none }, .flush, .flush, .flush].map
      (EncCall.onPrimitive (α := UInt64) .debug (watched (failingAfter 0)))) (PrimitiveEnc.Encoder.new 128 false, ([], []))).2.2.map
        (·.1) = [1, 3, 5] := by
  decide +kernel

end Meerkat
