import Verif.Proofs.RleEncode
import Verif.Spec.Bitmap

set_option autoImplicit false

/-! # The RLE encoder: bits, clearing, and safety of every reachable state -/

namespace Meerkat.Rle
open Spec Varint

@[simp] theorem byteBits_length (b : UInt8) : (byteBits b).length = 8 := by simp [byteBits]

@[simp] theorem bytesBits_nil : bytesBits [] = [] := rfl
@[simp] theorem bytesBits_cons (b : UInt8) (bs : Bytes) : bytesBits (b :: bs) = byteBits b ++ bytesBits bs := by
  simp [bytesBits]
@[simp] theorem bytesBits_append (a b : Bytes) : bytesBits (a ++ b) = bytesBits a ++ bytesBits b := by
  simp [bytesBits]
@[simp] theorem bytesBits_length (bs : Bytes) : (bytesBits bs).length = 8 * bs.length := by
  induction bs with
  | nil => rfl
  | cons b bs ih => simp [ih]; omega

theorem byteBits_of_testBit {b : UInt8} {r : List Bool} (hr : r.length ≤ 8)
    (h : ∀ j, b.toNat.testBit j = r.getD j false) :
    byteBits b = r ++ List.replicate (8 - r.length) false := by
  apply List.ext_getElem
  · simp; omega
  · intro i h1 h2
    simp only [byteBits_length] at h1
    simp only [byteBits, List.getElem_map, List.getElem_range, h]
    by_cases hi : i < r.length
    · rw [List.getElem_append_left hi]; simp [hi]
    · have hn : r[i]? = none := List.getElem?_eq_none (by omega)
      rw [List.getElem_append_right (by omega)]; simp [hn]

namespace Encoder

/-- The bits of the byte being filled. -/
structure Partial (e : Encoder) (r : List Bool) : Prop where
  pos : e.bitPos = r.length
  lt : r.length < 8
  bits : ∀ j, e.byte.toNat.testBit j = r.getD j false

theorem index_mask {k : Nat} (h : k < 8) : index BIT_MASK k = .ok (UInt8.ofNat (2 ^ k)) := by
  match k, h with
  | 0, _ | 1, _ | 2, _ | 3, _ | 4, _ | 5, _ | 6, _ | 7, _ => rfl

theorem getD_append_one (r : List Bool) (b : Bool) (j : Nat) :
    (r ++ [b]).getD j false = (r.getD j false || (b && decide (r.length = j))) := by
  simp only [List.getD_eq_getElem?_getD]
  by_cases h : j < r.length
  · rw [List.getElem?_append_left h]
    have : ¬ r.length = j := by omega
    simp [this]
  · rw [List.getElem?_append_right (by omega)]
    by_cases h2 : r.length = j
    · subst h2; simp
    · have h3 : r[j]? = none := by simp; omega
      have h4 : j - r.length ≠ 0 := by omega
      have h5 : [b][j - r.length]? = none := by simp; omega
      simp [h2, h3, h5]

/-- The byte after setting one more bit. -/
theorem put_byte (e : Encoder) (r : List Bool) (h : e.Partial r) (b : Bool) :
    ∃ byte : Byte, e.setBit b = .ok byte ∧ ∀ j, byte.toNat.testBit j = (r ++ [b]).getD j false := by
  cases b with
  | false =>
    refine ⟨e.byte, rfl, fun j => ?_⟩
    rw [getD_append_one, h.bits]; simp
  | true =>
    have hlt : e.bitPos < 8 := by rw [h.pos]; exact h.lt
    refine ⟨e.byte ||| UInt8.ofNat (2 ^ e.bitPos), ?_, fun j => ?_⟩
    · simp [setBit, index_mask hlt]
    · rw [getD_append_one, Bitmap.testBit_or_mask _ hlt, h.bits, h.pos]; simp

theorem put_lt (p : Profile) (e : Encoder) (r : List Bool) (h : e.Partial r) (b : Bool)
    (hlt : r.length + 1 < 8) :
    ∃ byte, e.put p b = .ok { e with byte := byte, bitPos := e.bitPos + 1 } ∧
      ∀ j, byte.toNat.testBit j = (r ++ [b]).getD j false := by
  obtain ⟨byte, h1, h2⟩ := put_byte e r h b
  refine ⟨byte, ?_, h2⟩
  have hp := h.pos
  simp only [put, h1, ok_bind]
  rw [if_neg (by omega)]; rfl

theorem put_full (p : Profile) (e : Encoder) (r : List Bool) (h : e.Partial r) (b : Bool)
    (hlt : r.length + 1 = 8) :
    ∃ byte, e.put p b = (do
        let e ← append p { e with byte := byte, bitPos := 0 } byte
        return { e with byte := 0 }) ∧
      byteBits byte = r ++ [b] := by
  obtain ⟨byte, h1, h2⟩ := put_byte e r h b
  refine ⟨byte, ?_, ?_⟩
  · have hp := h.pos
    simp only [put, h1, ok_bind]
    rw [if_pos (by omega)]
  · have := byteBits_of_testBit (by simp; omega) h2
    simpa [hlt] using this

theorem Core.congr {e e' : Encoder} {bs pend : Bytes} {fs : List Frame} (h : e.Core bs fs pend)
    (h1 : e'.encodedValues = e.encodedValues) (h2 : e'.buffer = e.buffer)
    (h3 : e'.repeatCount = e.repeatCount) (h4 : e'.lastValue = e.lastValue)
    (h5 : e'.runStartPos = e.runStartPos) (h6 : e'.state = e.state) : e'.Core bs fs pend := by
  obtain ⟨a, b, c, d, f, g⟩ := h
  refine ⟨by rw [h1, a], b, ?_, by rw [h6]; exact d, by rw [h1, h6]; exact f, g⟩
  simp only [Pending, h2, h3, h4, h5, h6] at c ⊢
  exact c

theorem put_ok (p : Profile) (e : Encoder) (bs pend : Bytes) (fs : List Frame) (r : List Bool)
    (b : Bool) (hc : e.Core bs fs pend) (hp : e.Partial r) (hlen : bs.length < 2 ^ 62) :
    ∃ e' bs' fs' pend' r', e.put p b = .ok e' ∧ e'.Core bs' fs' pend' ∧ e'.Partial r' ∧
      bytesBits bs' ++ r' = bytesBits bs ++ r ++ [b] := by
  by_cases h8 : r.length + 1 = 8
  · obtain ⟨byte, h1, h2⟩ := put_full p e r hp b h8
    obtain ⟨e', fs', pend', h3, h4, h5, h6, _⟩ := append_ok p { e with byte := byte, bitPos := 0 } bs pend fs byte
      (hc.congr rfl rfl rfl rfl rfl rfl) hlen
    refine ⟨{ e' with byte := 0 }, bs ++ [byte], fs', pend', [], by rw [h1, h3]; rfl,
      h4.congr rfl rfl rfl rfl rfl rfl, ⟨?_, by simp, ?_⟩, ?_⟩
    · simp [h6]
    · simp
    · simp [h2]
  · obtain ⟨byte, h1, h2⟩ := put_lt p e r hp b (by have := hp.lt; omega)
    refine ⟨_, bs, fs, pend, r ++ [b], h1, hc.congr rfl rfl rfl rfl rfl rfl, ⟨?_, ?_, h2⟩, by simp⟩
    · simp [hp.pos]
    · have := hp.lt; simp; omega

theorem putAll_ok (p : Profile) (bits : List Bool) : ∀ (e : Encoder) (bs pend : Bytes)
    (fs : List Frame) (r : List Bool) (_ : e.Core bs fs pend) (_ : e.Partial r)
    (_ : 8 * bs.length + r.length + bits.length < 2 ^ 64),
    ∃ e' bs' fs' pend' r', e.putAll p bits = .ok e' ∧ e'.Core bs' fs' pend' ∧ e'.Partial r' ∧
      bytesBits bs' ++ r' = bytesBits bs ++ r ++ bits := by
  induction bits with
  | nil => intro e bs pend fs r hc hp _; exact ⟨e, bs, fs, pend, r, rfl, hc, hp, by simp⟩
  | cons b bits ih =>
    intro e bs pend fs r hc hp hlen
    simp only [List.length_cons] at hlen
    obtain ⟨e1, bs1, fs1, pend1, r1, h1, h2, h3, h4⟩ := put_ok p e bs pend fs r b hc hp (by omega)
    have hl := congrArg List.length h4
    simp only [List.length_append, bytesBits_length, List.length_cons, List.length_nil] at hl
    have hr := hp.lt
    obtain ⟨e2, bs2, fs2, pend2, r2, g1, g2, g3, g4⟩ := ih e1 bs1 pend1 fs1 r1 h2 h3 (by omega)
    refine ⟨e2, bs2, fs2, pend2, r2, ?_, g2, g3, ?_⟩
    · simp only [putAll, List.foldlM_cons, h1, ok_bind]; exact g1
    · rw [g4, h4]; simp

/-- Result of `flush`. -/
theorem flush_ok (p : Profile) (e : Encoder) (bs pend : Bytes) (fs : List Frame) (r : List Bool)
    (hc : e.Core bs fs pend) (hp : e.Partial r) (hlen : bs.length + 1 < 2 ^ 62) :
    ∃ e' fs' pad, e.flush p = .ok e' ∧ e'.encodedValues = bytesAll fs' ∧
      bytesBits (expandAll fs') = bytesBits bs ++ r ++ List.replicate pad false ∧ pad < 8 ∧
      e'.encodedValues.length ≤ (expandAll fs').length + (expandAll fs').length / 64 +
        (if expandAll fs' = [] then 0 else 1) ∧ ∀ f ∈ fs', f.expand ≠ [] := by
  rw [flush_eq]
  by_cases h0 : e.bitPos > 0
  · rw [if_pos h0]
    obtain ⟨e1, fs1, pend1, h1, h2, _⟩ := append_ok p e bs pend fs e.byte hc (by omega)
    obtain ⟨e2, fs2, g1, g2, g3, g4⟩ := finish_ok e1 (bs ++ [e.byte]) pend1 fs1 h2 (by simpa using hlen)
    refine ⟨e2, fs2, 8 - r.length, by rw [h1]; exact g1, g2, ?_, ?_, by rw [g3]; exact g4.1, g4.2⟩
    · rw [g3]
      simp [byteBits_of_testBit (Nat.le_of_lt hp.lt) hp.bits]
    · rw [hp.pos] at h0; omega
  · rw [if_neg h0]
    obtain ⟨e2, fs2, g1, g2, g3, g4⟩ := finish_ok e bs pend fs hc (by omega)
    refine ⟨e2, fs2, 0, g1, g2, ?_, by omega, by rw [g3]; exact g4.1, g4.2⟩
    have : r = [] := by rw [← List.length_eq_zero_iff, ← hp.pos]; omega
    rw [g3, this]; simp

theorem clear_core (e : Encoder) : e.clear.Core [] [] [] where
  enc := rfl
  all := rfl
  pending := ⟨rfl, rfl⟩
  initEmpty _ := rfl
  size := Nat.le_refl _
  full := by simp

theorem clear_partial (e : Encoder) : e.clear.Partial [] := ⟨rfl, by simp, by simp [clear]⟩
theorem new_partial : new.Partial [] := ⟨rfl, by simp, by simp [new]⟩

/-! ## The encoding as a function of the bits -/

theorem append_profile (p q : Profile) (e : Encoder) (bs pend : Bytes) (fs : List Frame) (cur : Byte)
    (h : e.Core bs fs pend) : e.append p cur = e.append q cur := by
  obtain ⟨_, _, hp, _, _⟩ := h
  cases hst : e.state with
  | literal =>
    simp only [Pending, hst] at hp
    obtain ⟨_, pre, hb⟩ := hp
    simp only [append, appendMatch, hst]
    rw [Profile.sub_ok _ (by simp [hb]), Profile.sub_ok _ (by simp [hb])]
  | init => simp only [append, appendMatch, hst]
  | startOfRun => simp only [append, appendMatch, hst]
  | run => simp only [append, appendMatch, hst]

theorem put_profile (p q : Profile) (e : Encoder) (bs pend : Bytes) (fs : List Frame) (b : Bool)
    (h : e.Core bs fs pend) : e.put p b = e.put q b := by
  have ha : ∀ by' bp cur, append p { e with byte := by', bitPos := bp } cur =
      append q { e with byte := by', bitPos := bp } cur :=
    fun by' bp cur => append_profile p q _ bs pend fs cur (h.congr rfl rfl rfl rfl rfl rfl)
  simp only [put]
  congr 1
  funext byte
  simp only [ha]

theorem putAll_profile (p q : Profile) (bits : List Bool) : ∀ (e : Encoder) (bs pend : Bytes)
    (fs : List Frame) (r : List Bool) (_ : e.Core bs fs pend) (_ : e.Partial r)
    (_ : 8 * bs.length + r.length + bits.length < 2 ^ 64), e.putAll p bits = e.putAll q bits := by
  induction bits with
  | nil => intros; rfl
  | cons b bits ih =>
    intro e bs pend fs r hc hp hlen
    simp only [List.length_cons] at hlen
    obtain ⟨e1, bs1, fs1, pend1, r1, h1, h2, h3, h4⟩ := put_ok p e bs pend fs r b hc hp (by omega)
    have hl := congrArg List.length h4
    simp only [List.length_append, bytesBits_length, List.length_cons, List.length_nil] at hl
    have hr := hp.lt
    simp only [putAll, List.foldlM_cons]
    rw [← put_profile p q e bs pend fs b hc, h1]
    exact ih e1 bs1 pend1 fs1 r1 h2 h3 (by omega)

theorem flush_profile (p q : Profile) (e : Encoder) (bs pend : Bytes) (fs : List Frame)
    (hc : e.Core bs fs pend) : e.flush p = e.flush q := by
  rw [flush_eq, flush_eq, append_profile p q e bs pend fs e.byte hc]

/-- Equal up to a `last_value` nobody reads. -/
def Sim (a b : Encoder) : Prop := a = b ∨ (a.state = .init ∧ ∃ l, b = { a with lastValue := l })

theorem append_sim (p : Profile) {a b : Encoder} (h : Sim a b) (cur : Byte) : a.append p cur = b.append p cur := by
  rcases h with rfl | ⟨h1, l, h2⟩
  · rfl
  · subst h2
    simp [append, appendMatch, h1]

theorem put_sim (p : Profile) {a b : Encoder} (h : Sim a b) (v : Bool) :
    (a.put p v = b.put p v) ∨ (∃ a' b', a.put p v = .ok a' ∧ b.put p v = .ok b' ∧ Sim a' b') := by
  rcases h with rfl | ⟨h1, l, h2⟩
  · exact .inl rfl
  · have hs : ∀ by' bp cur, append p { a with byte := by', bitPos := bp } cur =
        append p { b with byte := by', bitPos := bp } cur := by
      intro by' bp cur
      apply append_sim
      right; subst h2; exact ⟨h1, l, rfl⟩
    subst h2
    have hsb : setBit { a with lastValue := l } v = a.setBit v := rfl
    simp only [put, hsb]
    cases hm : a.setBit v with
    | error e => left; rfl
    | ok byte =>
      simp only [ok_bind]
      by_cases h8 : a.bitPos + 1 = 8
      · left; simp only [h8, if_true, hs]
      · right
        refine ⟨_, _, by rw [if_neg h8]; rfl, by rw [if_neg h8]; rfl, ?_⟩
        right; exact ⟨h1, l, rfl⟩

theorem putAll_sim (p : Profile) (bits : List Bool) : ∀ {a b : Encoder}, Sim a b →
    (a.putAll p bits = b.putAll p bits) ∨
      (∃ a' b', a.putAll p bits = .ok a' ∧ b.putAll p bits = .ok b' ∧ Sim a' b') := by
  induction bits with
  | nil => intro a b h; right; exact ⟨a, b, rfl, rfl, h⟩
  | cons v bits ih =>
    intro a b h
    simp only [putAll, List.foldlM_cons]
    rcases put_sim p h v with h1 | ⟨a', b', h1, h2, h3⟩
    · left; rw [h1]
    · rw [h1, h2]; simp only [ok_bind]; exact ih h3

theorem flush_sim (p : Profile) {a b : Encoder} (h : Sim a b) :
    (a.flush p).map encodedValues = (b.flush p).map encodedValues := by
  have h2 := append_sim p h
  rcases h with rfl | ⟨h0, l, h1⟩
  · rfl
  · rw [flush_eq, flush_eq]
    subst h1
    simp only at h2 ⊢
    by_cases hb : a.bitPos > 0
    · rw [if_pos hb, if_pos hb, h2]
    · rw [if_neg hb, if_neg hb]
      simp [finish, h0, Except.map]

theorem clear_sim (e : Encoder) : Sim e.clear new := by
  right; exact ⟨rfl, 0, rfl⟩

/-- The bytes produced by `put` on each bit and `flush`, starting from `e`. -/
def run (p : Profile) (e : Encoder) (bits : List Bool) : Res Bytes := do
  let e ← e.putAll p bits
  let e ← e.flush p
  return e.encodedValues

theorem run_clear (p : Profile) (e : Encoder) (bits : List Bool) : run p e.clear bits = run p new bits := by
  simp only [run]
  rcases putAll_sim p bits (clear_sim e) with h | ⟨a', b', h1, h2, h3⟩
  · rw [h]
  · rw [h1, h2]
    have := flush_sim p h3
    simp only [ok_bind]
    cases ha : a'.flush p <;> cases hb : b'.flush p <;> rw [ha, hb] at this <;>
      simp_all [Except.map]

theorem run_ok (p : Profile) (bits : List Bool) (hlen : bits.length < 2 ^ 64) :
    ∃ fs pad, run p new bits = .ok (bytesAll fs) ∧
      bytesBits (expandAll fs) = bits ++ List.replicate pad false ∧ pad < 8 ∧
      (bytesAll fs).length ≤ (expandAll fs).length + (expandAll fs).length / 64 +
        (if expandAll fs = [] then 0 else 1) ∧ ∀ f ∈ fs, f.expand ≠ [] := by
  obtain ⟨e1, bs1, fs1, pend1, r1, h1, h2, h3, h4⟩ :=
    putAll_ok p bits new [] [] [] [] new_core new_partial (by simpa using hlen)
  have hl := congrArg List.length h4
  simp at hl
  obtain ⟨e2, fs2, pad, g1, g2, g3, g4, g5⟩ := flush_ok p e1 bs1 pend1 fs1 r1 h2 h3 (by omega)
  refine ⟨fs2, pad, ?_, by rw [g3, h4]; simp, g4, by rw [← g2]; exact g5.1, g5.2⟩
  simp only [run, h1, ok_bind, g1, g2]; rfl

end Encoder

/-- Canonical encoding of a bit sequence. -/
def rleBytes (bits : List Bool) : Bytes :=
  match Encoder.run .debug .new bits with
  | .ok b => b
  | .error _ => []

theorem run_profile (p q : Profile) (bits : List Bool) (hlen : bits.length < 2 ^ 64) :
    Encoder.run p .new bits = Encoder.run q .new bits := by
  simp only [Encoder.run]
  rw [Encoder.putAll_profile p q bits _ [] [] [] [] Encoder.new_core Encoder.new_partial (by simpa using hlen)]
  obtain ⟨e1, bs1, fs1, pend1, r1, h1, h2, h3, h4⟩ :=
    Encoder.putAll_ok q bits .new [] [] [] [] Encoder.new_core Encoder.new_partial (by simpa using hlen)
  rw [h1]
  simp only [ok_bind]
  rw [Encoder.flush_profile p q e1 bs1 pend1 fs1 h2]

theorem run_eq (p : Profile) (e : Encoder) (bits : List Bool) (hlen : bits.length < 2 ^ 64) :
    Encoder.run p e.clear bits = .ok (rleBytes bits) := by
  rw [Encoder.run_clear]
  obtain ⟨fs, pad, h, _⟩ := Encoder.run_ok p bits hlen
  have h2 := run_profile .debug p bits hlen
  rw [h] at h2 ⊢
  simp [rleBytes, h2]

theorem rleBytes_frames (bits : List Bool) (hlen : bits.length < 2 ^ 64) :
    ∃ fs pad, rleBytes bits = bytesAll fs ∧
      bytesBits (expandAll fs) = bits ++ List.replicate pad false ∧ pad < 8 ∧
      (bytesAll fs).length ≤ (expandAll fs).length + (expandAll fs).length / 64 +
        (if expandAll fs = [] then 0 else 1) ∧ ∀ f ∈ fs, f.expand ≠ [] := by
  obtain ⟨fs, pad, h, h1, h2, h3⟩ := Encoder.run_ok .debug bits hlen
  exact ⟨fs, pad, by simp [rleBytes, h], h1, h2, h3⟩

/-! ## A bitmap made of equal bytes -/

theorem byteBits_inj {a b : UInt8} (h : byteBits a = byteBits b) : a = b := by
  apply UInt8.toNat_inj.mp
  apply Nat.eq_of_testBit_eq
  intro j
  by_cases hj : j < 8
  · have := congrArg (fun l => l[j]?) h
    simpa [byteBits, hj] using this
  · have hlt : ∀ x : UInt8, x.toNat < 2 ^ j := fun x =>
      Nat.lt_of_lt_of_le x.toNat_lt (Nat.pow_le_pow_right (by omega) (by omega))
    rw [Nat.testBit_lt_two_pow (hlt a), Nat.testBit_lt_two_pow (hlt b)]

namespace Encoder

theorem putAll_fill (p : Profile) (bits : List Bool) : ∀ (e : Encoder) (r : List Bool) (_ : e.Partial r)
    (_ : r.length + bits.length = 8),
    ∃ B, byteBits B = r ++ bits ∧ e.putAll p bits = (do
        let e ← append p { e with byte := B, bitPos := 0 } B
        return { e with byte := 0 }) := by
  induction bits with
  | nil => intro e r h hl; have := h.lt; simp at hl; omega
  | cons b bits ih =>
    intro e r h hl
    simp only [List.length_cons] at hl
    by_cases hb : bits = []
    · subst hb
      obtain ⟨B, h1, h2⟩ := put_full p e r h b (by simpa using hl)
      refine ⟨B, h2, ?_⟩
      simp only [putAll, List.foldlM_cons, List.foldlM_nil]
      rw [h1]
      simp
    · have hpos := List.length_pos_iff.mpr hb
      obtain ⟨byte, h1, h2⟩ := put_lt p e r h b (by omega)
      obtain ⟨B, g1, g2⟩ := ih { e with byte := byte, bitPos := e.bitPos + 1 } (r ++ [b])
        ⟨by simp [h.pos], by simp; omega, h2⟩ (by simp; omega)
      refine ⟨B, by simpa using g1, ?_⟩
      simp only [putAll, List.foldlM_cons, h1, ok_bind]
      exact g2

theorem putAll_byte (p : Profile) (e : Encoder) (h : e.Partial []) (b : Byte) :
    e.putAll p (byteBits b) = (do
        let e ← append p { e with byte := b, bitPos := 0 } b
        return { e with byte := 0 }) := by
  obtain ⟨B, h1, h2⟩ := putAll_fill p (byteBits b) e [] h (by simp)
  have : B = b := byteBits_inj (by simpa using h1)
  subst this
  exact h2

/-- State after `n` equal bytes, `n ≥ 3`. -/
def runState (n : Nat) (b : Byte) : Encoder :=
  { encodedValues := [], byte := 0, bitPos := 0, buffer := [], repeatCount := n, lastValue := b,
    runStartPos := 0, state := .run }

theorem putAll_replicate (p : Profile) (b : Byte) (n : Nat) :
    new.putAll p (bytesBits (List.replicate (n + 3) b)) = .ok (runState (n + 3) b) := by
  have happ : ∀ (e : Encoder) (x y : List Bool), e.putAll p (x ++ y) = e.putAll p x >>= fun e => e.putAll p y := by
    intro e x y; simp [putAll, List.foldlM_append]
  induction n with
  | zero =>
    simp only [List.replicate, bytesBits_cons, bytesBits_nil, List.append_nil, happ]
    rw [putAll_byte p _ new_partial]
    simp only [append, appendMatch, new, ok_bind, pure_eq_ok, List.nil_append]
    rw [putAll_byte p _ ⟨rfl, by simp, by simp⟩]
    simp only [append, appendMatch, ok_bind, pure_eq_ok, if_true]
    rw [Profile.sub_ok _ (by simp)]
    simp only [ok_bind]
    rw [putAll_byte p _ ⟨rfl, by simp, by simp⟩]
    simp [append, appendMatch, MIN_RUN_LEN, runState]
  | succ n ih =>
    have : List.replicate (n + 1 + 3) b = List.replicate (n + 3) b ++ [b] := by
      rw [← List.replicate_succ']
    rw [this, bytesBits_append, happ, ih]
    simp only [ok_bind, bytesBits_cons, bytesBits_nil, List.append_nil]
    rw [putAll_byte p _ ⟨rfl, by simp [runState], by simp [runState]⟩]
    simp [append, appendMatch, runState]

end Encoder

theorem rleBytes_replicate (b : Byte) (n : Nat) (hn : 3 ≤ n) (hlt : n < 2 ^ 60) :
    rleBytes (bytesBits (List.replicate n b)) = varintBytes (2 * n) ++ [b] := by
  obtain ⟨k, rfl⟩ : ∃ k, n = k + 3 := ⟨n - 3, by omega⟩
  have h1 := Encoder.putAll_replicate .debug b k
  have h2 : (Encoder.runState (k + 3) b).flush .debug =
      .ok { Encoder.runState (k + 3) b with encodedValues := [] ++ (Frame.run (k + 3) b).bytes } := by
    rw [Encoder.flush_eq, if_neg (by simp [Encoder.runState])]
    exact Encoder.emitRun_ok _ (k + 3) _ (by omega)
  simp only [rleBytes, Encoder.run, h1, ok_bind, h2]
  simp [Frame.bytes]

/-! ## Safety of every reachable state -/

namespace Encoder

/-- What keeps the encoder from panicking. -/
structure Safe (e : Encoder) : Prop where
  bit : e.bitPos < 8
  lit : e.state = .literal → e.buffer ≠ []
  start : e.state = .startOfRun → e.runStartPos ≤ e.buffer.length

theorem shl_lt (v k : Nat) : shl 64 v k < 2 ^ 64 := by simp only [shl]; exact Nat.mod_lt _ (by omega)

theorem emitRun_total (e : Encoder) (n : Nat) (b : Byte) :
    ∃ ev, e.emitRun n b = .ok { e with encodedValues := ev } := by
  have hl := varintBytes_length_le_ten (shl_lt n 1)
  simp only [emitRun]
  rw [encodeVarint_ok _ _ (by simpa [MAX_VARINT_LEN] using hl)]
  simp only [ok_bind]
  rw [slice, if_pos (by simp)]
  exact ⟨_, rfl⟩

theorem emitLit_total (e : Encoder) (n : Nat) (h : n ≤ e.buffer.length) :
    ∃ ev, e.emitBitmapLiteral n = .ok { e with encodedValues := ev } := by
  simp only [emitBitmapLiteral]
  split
  · exact ⟨e.encodedValues, rfl⟩
  · have hv : shl 64 n 1 ||| 1 < 2 ^ 64 := Nat.or_lt_two_pow (shl_lt n 1) (by omega)
    have hl := varintBytes_length_le_ten hv
    rw [encodeVarint_ok _ _ (by simpa [MAX_VARINT_LEN] using hl)]
    simp only [ok_bind]
    rw [slice, if_pos (by simp)]
    simp only [ok_bind]
    rw [slice, if_pos ⟨by omega, h⟩]
    exact ⟨_, rfl⟩

theorem append_safe (p : Profile) (e : Encoder) (h : e.Safe) (cur : Byte) :
    ∃ e', e.append p cur = .ok e' ∧ e'.Safe := by
  obtain ⟨hb, hl, hs⟩ := h
  cases hst : e.state with
  | init =>
    refine ⟨{ e with state := .literal, buffer := e.buffer ++ [cur], lastValue := cur },
      by simp [append, appendMatch, hst], ⟨hb, by simp, by simp⟩⟩
  | literal =>
    by_cases hc : e.lastValue = cur
    · have hpos : 1 ≤ e.buffer.length := List.length_pos_iff.mpr (hl hst)
      refine ⟨{ e with repeatCount := 2, runStartPos := e.buffer.length - 1, state := .startOfRun,
                       buffer := e.buffer ++ [cur], lastValue := cur }, ?_, ⟨hb, by simp, ?_⟩⟩
      · simp only [append, appendMatch, hst, if_pos hc]
        rw [Profile.sub_ok _ hpos]; simp
      · intro _; simp; omega
    · refine ⟨{ e with buffer := e.buffer ++ [cur], lastValue := cur },
        by simp [append, appendMatch, hst, hc], ⟨hb, by simp, by simp [hst]⟩⟩
  | startOfRun =>
    have hle := hs hst
    by_cases hc : e.lastValue = cur
    · by_cases h3 : e.repeatCount + 1 = MIN_RUN_LEN
      · by_cases hpos : e.runStartPos > 0
        · obtain ⟨ev, hev⟩ := emitLit_total { e with buffer := e.buffer ++ [cur], repeatCount := e.repeatCount + 1 }
            e.runStartPos (by simp; omega)
          refine ⟨{ e with encodedValues := ev, repeatCount := e.repeatCount + 1, buffer := [],
                           state := .run, lastValue := cur }, ?_, ⟨hb, by simp, by simp⟩⟩
          simp only [append, appendMatch, hst, ne_eq, hc, not_true_eq_false, if_false, if_pos h3,
            if_pos hpos]
          rw [hst, hc] at hev
          rw [hev]; rfl
        · refine ⟨{ e with repeatCount := e.repeatCount + 1, buffer := [],
                           state := .run, lastValue := cur }, ?_, ⟨hb, by simp, by simp⟩⟩
          simp only [append, appendMatch, hst, ne_eq, hc, not_true_eq_false, if_false, if_pos h3,
            if_neg hpos]
          rfl
      · refine ⟨{ e with repeatCount := e.repeatCount + 1, buffer := e.buffer ++ [cur], lastValue := cur },
          by simp [append, appendMatch, hst, hc, h3], ⟨hb, by simp, ?_⟩⟩
        intro _; simp; omega
    · exact ⟨{ e with repeatCount := 0, runStartPos := 0, state := .literal,
                       buffer := e.buffer ++ [cur], lastValue := cur },
        by simp [append, appendMatch, hst, hc, transitionToLiteral], ⟨hb, by simp, by simp⟩⟩
  | run =>
    by_cases hc : e.lastValue = cur
    · exact ⟨{ e with repeatCount := e.repeatCount + 1, lastValue := cur },
        by simp [append, appendMatch, hst, hc], ⟨hb, by simp [hst], by simp [hst]⟩⟩
    · obtain ⟨ev, hev⟩ := emitRun_total e e.repeatCount e.lastValue
      exact ⟨{ e with encodedValues := ev, repeatCount := 0, runStartPos := 0, state := .literal,
                       buffer := e.buffer ++ [cur], lastValue := cur },
        by simp only [append, appendMatch, hst, ne_eq, hc, not_false_eq_true, if_true, hev, ok_bind,
          transitionToLiteral, pure_eq_ok], ⟨hb, by simp, by simp⟩⟩

theorem put_safe (p : Profile) (e : Encoder) (h : e.Safe) (b : Bool) :
    ∃ e', e.put p b = .ok e' ∧ e'.Safe := by
  have hm : ∃ byte : Byte, e.setBit b = .ok byte := by
    cases b
    · exact ⟨_, rfl⟩
    · simp only [setBit, if_true]; rw [index_mask h.bit]; exact ⟨_, rfl⟩
  obtain ⟨byte, hm⟩ := hm
  simp only [put, hm, ok_bind]
  by_cases h8 : e.bitPos + 1 = 8
  · rw [if_pos h8]
    obtain ⟨e1, h1, h2⟩ := append_safe p { e with byte := byte, bitPos := 0 } ⟨by simp, h.lit, h.start⟩ byte
    rw [h1]
    exact ⟨_, rfl, ⟨h2.bit, h2.lit, h2.start⟩⟩
  · rw [if_neg h8]
    exact ⟨_, rfl, ⟨by have := h.bit; simp; omega, h.lit, h.start⟩⟩

theorem putAll_safe (p : Profile) (bits : List Bool) : ∀ (e : Encoder) (_ : e.Safe),
    ∃ e', e.putAll p bits = .ok e' ∧ e'.Safe := by
  induction bits with
  | nil => intro e h; exact ⟨e, rfl, h⟩
  | cons b bits ih =>
    intro e h
    obtain ⟨e1, h1, h2⟩ := put_safe p e h b
    obtain ⟨e2, g1, g2⟩ := ih e1 h2
    exact ⟨e2, by simp only [putAll, List.foldlM_cons, h1, ok_bind]; exact g1, g2⟩

theorem flush_safe (p : Profile) (e : Encoder) (h : e.Safe) : ∃ e', e.flush p = .ok e' ∧ e'.Safe := by
  rw [flush_eq]
  have h1 : ∃ e1, (if e.bitPos > 0 then e.append p e.byte else pure e) = .ok e1 ∧ e1.Safe := by
    split
    · exact append_safe p e h e.byte
    · exact ⟨e, rfl, h⟩
  obtain ⟨e1, h1, h2⟩ := h1
  rw [h1]
  simp only [ok_bind, finish]
  obtain ⟨ev1, g1⟩ := emitLit_total e1 e1.buffer.length (Nat.le_refl _)
  obtain ⟨ev2, g2⟩ := emitRun_total e1 e1.repeatCount e1.lastValue
  cases hst : e1.state
  · exact ⟨e1, rfl, h2⟩
  · exact ⟨_, g1, ⟨h2.bit, h2.lit, h2.start⟩⟩
  · exact ⟨_, g1, ⟨h2.bit, h2.lit, h2.start⟩⟩
  · exact ⟨_, g2, ⟨h2.bit, h2.lit, h2.start⟩⟩

theorem new_safe : new.Safe := ⟨by simp [new], by simp [new], by simp [new]⟩
theorem clear_safe (e : Encoder) : e.clear.Safe := ⟨by simp [clear], by simp [clear], by simp [clear]⟩

/-- `put_from` in terms of `put`. -/
theorem putFrom_eq (p : Profile) {src : Bitmap} {ss : List Bool} (hs : src.Reads ss)
    (e : Encoder) (he : e.Safe) (pos n : Nat) :
    e.putFrom p src pos n =
      match takeSet n (ss.drop pos) with
      | none => .error .assertion
      | some q => e.putAll p q >>= fun e' => .ok (e', pos + q.length) := by
  rw [putFrom]
  generalize hk : src.len - pos = k
  induction k generalizing e pos n with
  | zero =>
    rw [putFromLoop]
    have hdrop : ss.drop pos = [] := by
      apply List.drop_eq_nil_of_le; have := hs.len; omega
    cases n with
    | zero => simp [takeSet, putAll]
    | succ n =>
      rw [if_neg (by omega), dif_neg (by omega), hdrop]; simp [takeSet]
  | succ k ih =>
    rw [putFromLoop]
    cases n with
    | zero => simp [takeSet, putAll]
    | succ n =>
      have hlt : pos < ss.length := by have := hs.len; omega
      rw [if_neg (by omega), dif_pos (by omega), hs.get pos hlt]
      simp only [ok_bind]
      obtain ⟨e1, h1, he1⟩ := put_safe p e he ss[pos]
      rw [h1]; simp only [ok_bind]
      rw [ih e1 he1 (pos + 1) (n + 1 - ss[pos].toNat) (by omega)]
      rw [List.drop_eq_getElem_cons hlt]
      simp only [takeSet]
      cases takeSet (n + 1 - ss[pos].toNat) (ss.drop (pos + 1)) with
      | none => rfl
      | some q =>
        simp only [Option.map_some, putAll, List.foldlM_cons, h1, ok_bind, List.length_cons]
        congr 1; funext d; congr 2; omega

end Encoder
end Meerkat.Rle
