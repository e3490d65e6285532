import Verif.Proofs.RleCanonical

set_option autoImplicit false

/-! # Property C78: a bitmap has one compressed form -/

namespace Meerkat
open Spec Varint

namespace RleCanonical

theorem header_eq {h g t u : Bytes} (hh : IsVarint h) (hg : IsVarint g) (he : h ++ t = g ++ u) : h = g ∧ t = u := by
  rcases List.append_eq_append_iff.1 he with ⟨m, h1, h2⟩ | ⟨m, h1, h2⟩
  · have := isVarint_prefix hh hg ⟨m, h1.symm⟩
    subst this
    exact ⟨rfl, List.append_cancel_left he⟩
  · have := isVarint_prefix hg hh ⟨m, h1.symm⟩
    subst this
    exact ⟨rfl, List.append_cancel_left he⟩

theorem piece_eq {x y : RlePiece} {a b t u : Bytes} (hx : x.Written a) (hy : y.Written b) (he : a ++ t = b ++ u) :
    x = y ∧ t = u := by
  obtain ⟨h, h1, _, h3⟩ := hx
  obtain ⟨g, g1, _, g3⟩ := hy
  cases x with
  | run n v =>
    obtain ⟨h3, rfl⟩ := h3
    cases y with
    | run m w =>
      obtain ⟨g3, rfl⟩ := g3
      rw [List.append_assoc, List.append_assoc] at he
      obtain ⟨rfl, h4⟩ := header_eq h1 g1 he
      obtain ⟨rfl, h5⟩ := List.cons.inj h4
      exact ⟨by rw [show n = m by omega], h5⟩
    | literal bs =>
      obtain ⟨g3, rfl⟩ := g3
      rw [List.append_assoc, List.append_assoc] at he
      obtain ⟨rfl, h4⟩ := header_eq h1 g1 he
      omega
  | literal as =>
    obtain ⟨h3, rfl⟩ := h3
    cases y with
    | run m w =>
      obtain ⟨g3, rfl⟩ := g3
      rw [List.append_assoc, List.append_assoc] at he
      obtain ⟨rfl, h4⟩ := header_eq h1 g1 he
      omega
    | literal bs =>
      obtain ⟨g3, rfl⟩ := g3
      rw [List.append_assoc, List.append_assoc] at he
      obtain ⟨rfl, h4⟩ := header_eq h1 g1 he
      obtain ⟨rfl, h5⟩ := List.append_inj h4 (by omega)
      exact ⟨rfl, h5⟩

theorem written_ne {x : RlePiece} {a : Bytes} (h : x.Written a) : a ≠ [] := by
  obtain ⟨h, h1, _, h3⟩ := h
  intro h0
  cases x with
  | run n v => rw [h3.2] at h0; exact absurd h0 (by simp)
  | literal bs =>
    rw [h3.2] at h0
    rw [(List.append_eq_nil_iff.1 h0).1] at h1
    exact h1

theorem pieces_eq {ps : List RlePiece} : ∀ {qs : List RlePiece} {enc : Bytes}, AllWritten ps enc → AllWritten qs enc → ps = qs := by
  induction ps with
  | nil =>
    intro qs enc h g
    cases qs with
    | nil => rfl
    | cons y qs =>
      obtain ⟨a, b, rfl, g1, _⟩ := g
      exact absurd (List.append_eq_nil_iff.1 h).1 (written_ne g1)
  | cons x ps ih =>
    rintro qs _ ⟨a, b, rfl, h1, h2⟩ g
    cases qs with
    | nil => exact absurd (List.append_eq_nil_iff.1 g).1 (written_ne h1)
    | cons y qs =>
      obtain ⟨c, d, he, g1, g2⟩ := g
      obtain ⟨rfl, rfl⟩ := piece_eq h1 g1 he
      rw [ih h2 g2]

theorem bytesBits_inj {a b : Bytes} (h : bytesBits a = bytesBits b) : a = b := by
  induction a generalizing b with
  | nil =>
    have := congrArg List.length h
    simp at this
    exact (List.eq_nil_of_length_eq_zero (by omega)).symm
  | cons x a ih =>
    cases b with
    | nil =>
      have := congrArg List.length h
      simp at this
    | cons y b =>
      rw [Rle.bytesBits_cons, Rle.bytesBits_cons] at h
      obtain ⟨h1, h2⟩ := List.append_inj h (by simp)
      rw [Rle.byteBits_inj h1, ih h2]

end RleCanonical

/-- C78: whatever bits are put, `flush` leaves the compressed form of these bits, filled up with zeros to whole bytes. In both
builds. -/
theorem C78_compressed (p : Profile) (bits : List Bool) (hlen : bits.length < 2 ^ 64) :
    ∃ e e' bytes pad, Rle.Encoder.new.putAll p bits = .ok e ∧ e.flush p = .ok e' ∧ Compressed bytes e'.encodedValues ∧
      bytesBits bytes = bits ++ List.replicate pad false ∧ pad < 8 :=
  Rle.Encoder.new_compressed p bits hlen

/-- C78: bytes have one compressed form at most, and it is no other bytes' compressed form. -/
theorem C78_one_form {x y a b : Bytes} (ha : Compressed x a) (hb : Compressed y b) : x = y ↔ a = b := by
  constructor
  · rintro rfl
    exact Rle.compressed_unique ha hb
  · rintro rfl
    obtain ⟨ps, _, rfl, h3⟩ := ha
    obtain ⟨qs, _, rfl, g3⟩ := hb
    rw [RleCanonical.pieces_eq h3 g3]

/-- C78: two sequences of bits are compressed to the same bytes exactly if they are the same once filled up with zeros to whole
bytes, in whatever builds they are compressed. -/
theorem C78_same_iff (p q : Profile) (bits bits' : List Bool) (hlen : bits.length < 2 ^ 64) (hlen' : bits'.length < 2 ^ 64) :
    (do let e ← Rle.Encoder.new.putAll p bits; let e ← e.flush p; return e.encodedValues) =
      (do let e ← Rle.Encoder.new.putAll q bits'; let e ← e.flush q; return e.encodedValues) ↔
    ∃ i j, i < 8 ∧ j < 8 ∧ (bits.length + i) % 8 = 0 ∧ bits ++ List.replicate i false = bits' ++ List.replicate j false := by
  obtain ⟨e1, e2, x, i, h1, h2, h3, h4, h5⟩ := C78_compressed p bits hlen
  obtain ⟨f1, f2, y, j, g1, g2, g3, g4, g5⟩ := C78_compressed q bits' hlen'
  have hl1 := congrArg List.length h4
  have hl2 := congrArg List.length g4
  simp only [Rle.bytesBits_length, List.length_append, List.length_replicate] at hl1 hl2
  simp only [h1, h2, g1, g2, ok_bind, pure_eq_ok, Except.ok.injEq]
  rw [← C78_one_form h3 g3]
  constructor
  · rintro rfl
    exact ⟨i, j, h5, g5, by omega, by rw [← h4, ← g4]⟩
  · rintro ⟨i', j', k1, k2, k3, k4⟩
    have hl3 := congrArg List.length k4
    simp only [List.length_append, List.length_replicate] at hl3
    have e1 : i' = i := by omega
    have e2 : j' = j := by omega
    subst e1; subst e2
    exact RleCanonical.bytesBits_inj (by rw [h4, g4, k4])

/-- Two bytes, a run of four and one more byte: three pieces, as the encoder writes them. -/
example : Compressed [1, 1, 7, 7, 7, 7, 9] [5, 1, 1, 8, 7, 3, 9] ∧
    (do let e ← Rle.Encoder.new.putAll .debug (bytesBits [1, 1, 7, 7, 7, 7, 9])
        let e ← e.flush .debug
        return e.encodedValues) = .ok [5, 1, 1, 8, 7, 3, 9] := by
  obtain ⟨e1, e2, x, i, h1, h2, h3, h4, h5⟩ := C78_compressed .debug (bytesBits [1, 1, 7, 7, 7, 7, 9]) (by decide)
  have hrun : (do let e ← Rle.Encoder.new.putAll .debug (bytesBits [1, 1, 7, 7, 7, 7, 9])
                  let e ← e.flush .debug
                  return e.encodedValues) = .ok [5, 1, 1, 8, 7, 3, 9] := by decide +kernel
  have hl := congrArg List.length h4
  simp only [Rle.bytesBits_length, List.length_append, List.length_replicate, List.length_cons, List.length_nil] at hl
  have hi : i = 0 := by omega
  subst hi
  have hx := RleCanonical.bytesBits_inj (h4.trans (List.append_nil _))
  subst hx
  refine ⟨?_, hrun⟩
  simp only [h1, h2, ok_bind, pure_eq_ok, Except.ok.injEq] at hrun
  rwa [hrun] at h3

end Meerkat
