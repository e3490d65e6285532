import Verif.Spec.RleReflush
import Verif.Proofs.RleReflush

set_option autoImplicit false

/-! # Property C82: flushing the RLE encoder more than once -/

namespace Meerkat
open Spec Varint

namespace Rle.Encoder

theorem Known.waits_ne {e : Encoder} {bs : Bytes} {r : List Bool} {fs ws : List Frame} (h : e.Known bs r fs ws)
    (hne : bs ≠ []) : ∃ w, ws = [w] ∧ 1 ≤ w.expand.length := by
  have hw := h.neat.waits
  have hd := h.neat.divided
  have key : ∀ w, ws = [w] → ∃ w, ws = [w] ∧ 1 ≤ w.expand.length := by
    rintro w rfl
    refine ⟨w, rfl, ?_⟩
    rw [List.map_append, List.map_cons, List.map_nil] at hd
    have := good_ne ((divided_snoc.1 hd).2.1)
    rw [piece_bytes] at this
    exact List.length_pos_iff.2 this
  rcases hs : e.state with _ | _ | _ | _ <;> simp only [Waits, setEnc, hs] at hw
  · obtain ⟨rfl, rfl, _⟩ := hw
    exact absurd h.neat.all hne
  · exact key _ hw.1
  · exact key _ hw.1
  · exact key _ hw.1

theorem flushEach_known (p : Profile) : ∀ (chunks : List (List Bool)) {e : Encoder} {bs : Bytes} {r : List Bool}
    {fs ws ps : List Frame} {n : Nat}, e.Known bs r fs ws → bs ≠ [] → e.encodedValues = bytesAll ps →
    n ≤ 8 * (expandAll ps).length → 8 * bs.length + r.length + (chunks.map List.length).sum + 16 * chunks.length < 2 ^ 64 →
    ∃ e' ps', flushEach p e chunks = .ok e' ∧ e'.encodedValues = bytesAll ps' ∧
      n + (chunks.map List.length).sum + 8 * chunks.length ≤ 8 * (expandAll ps').length
  | [], e, _, _, _, _, ps, n, _, _, he, hn, _ => ⟨e, ps, rfl, he, by simpa using hn⟩
  | c :: chunks, e, bs, r, fs, ws, ps, n, hk, hbs, he, hn, hlen => by
    simp only [List.map_cons, List.sum_cons, List.length_cons] at hlen ⊢
    obtain ⟨e1, e', bs0, bs', r', fs', ws', ys, pad, h1, h2, h3, h4, h5, h6, h7, h8⟩ := hk.step p c (by omega)
    obtain ⟨w, rfl, hw⟩ := hk.waits_ne hbs
    have a1 := congrArg List.length hk.neat.all
    have a2 := congrArg List.length h3.neat.all
    rw [h4] at a2
    have b1 := congrArg List.length h6
    have b2 := congrArg List.length h7
    simp only [List.length_append, bytesBits_length, List.length_replicate, expandAll_append, expandAll_one] at a1 a2 b1 b2
    have hr := h3.part.lt
    obtain ⟨e2, ps', g1, g2, g3⟩ := flushEach_known p chunks (ps := ps ++ ys) (n := n + c.length + 8) h3
      (List.length_pos_iff.1 (by omega)) (by rw [h5, he, bytesAll_append])
      (by rw [expandAll_append, List.length_append]; omega) (by omega)
    refine ⟨e2, ps', ?_, g2, by omega⟩
    simp only [flushEach, List.foldlM_cons, h1, h2, ok_bind]
    exact g1

end Rle.Encoder

open Rle Rle.Encoder

/-- C82, exactly: an encoder that is flushed after each of several chunks leaves the compressed form of all bits if and only
if all chunks but the last are empty. -/
theorem C82_flush_iff (p : Profile) : ∀ (chunks : List (List Bool)),
    (chunks.map List.length).sum + 16 * chunks.length < 2 ^ 64 →
    ∃ e, flushEach p Rle.Encoder.new chunks = .ok e ∧
      (CompressedBits chunks.flatten e.encodedValues ↔ ∀ c ∈ chunks.dropLast, c = [])
  | [], _ => ⟨.new, rfl, by
      simp only [List.flatten_nil, List.dropLast_nil, List.not_mem_nil, false_implies, implies_true, iff_true]
      exact ⟨[], 0, by omega, rfl, [], trivial, rfl, rfl⟩⟩
  | [c], hlen => by
      obtain ⟨e, e', bytes, pad, h1, h2, h3, h4, h5⟩ := C78_compressed p c (by simp at hlen; omega)
      refine ⟨e', by simp only [flushEach, List.foldlM_cons, List.foldlM_nil, h1, h2, ok_bind]; rfl, ?_⟩
      simp only [List.dropLast_singleton, List.not_mem_nil, false_implies, implies_true, iff_true]
      exact ⟨bytes, pad, h5, by simpa using h4, h3⟩
  | [] :: c :: chunks, hlen => by
      obtain ⟨e, h1, h2⟩ := C82_flush_iff p (c :: chunks) (by simp at hlen ⊢; omega)
      refine ⟨e, h1, ?_⟩
      rw [List.flatten_cons, List.nil_append, h2, List.dropLast_cons_of_ne_nil (List.cons_ne_nil _ _)]
      simp
  | (b :: bits) :: c :: chunks, hlen => by
      simp only [List.map_cons, List.sum_cons, List.length_cons] at hlen
      obtain ⟨e1, e', bs0, bs', r', fs', ws', ys, pad, h1, h2, h3, h4, h5, h6, h7, h8⟩ :=
        new_known.step p (b :: bits) (by simp; omega)
      have a2 := congrArg List.length h3.neat.all
      rw [h4] at a2
      have b1 := congrArg List.length h6
      have b2 := congrArg List.length h7
      simp only [List.length_append, bytesBits_length, List.length_replicate, List.length_nil, List.length_cons,
        List.nil_append] at a2 b1 b2
      have hr := h3.part.lt
      obtain ⟨e2, ps, g1, g2, g3⟩ := flushEach_known p (c :: chunks) (ps := ys) (n := bits.length + 1) h3
        (by rintro rfl; simp at b2; omega) (by rw [h5]; rfl) (by omega)
        (by simp only [List.map_cons, List.sum_cons, List.length_cons]; omega)
      refine ⟨e2, ?_, ?_⟩
      · rw [flushEach, List.foldlM_cons]
        simp only [h1, h2, ok_bind]
        exact g1
      · constructor
        · rintro ⟨bytes, pad', k1, k2, qs, k3, rfl, k4⟩
          rw [g2] at k4
          have := RleCanonical.pieces_eq k4 (frames_written ps)
          rw [this, pieces_bytes] at k2
          have := congrArg List.length k2
          simp only [bytesBits_length, List.length_append, List.length_replicate, List.length_flatten, List.map_cons,
            List.sum_cons, List.length_cons] at this g3
          omega
        · intro h
          have := h (b :: bits) (by simp)
          cases this

/-- C82, exactly: what a second flush leaves. `c ++ t` is what the first one leaves, and `t` is the last piece of it. The
second one leaves `d` behind it, where `c ++ d` is the compressed form of the bits put before the first flush, filled up
with zeros to whole bytes, the bits of the byte that was not whole once more, and the bits put since. -/
theorem C82_second_flush_exact (p : Profile) (first second : List Bool) (hlen : first.length + second.length + 32 < 2 ^ 64) :
    ∃ e c t d whole rest fill, flushEach p Rle.Encoder.new [first, second] = .ok e ∧
      CompressedBits first (c ++ t) ∧ e.encodedValues = c ++ t ++ d ∧
      first = bytesBits whole ++ rest ∧ rest.length < 8 ∧ fill < 8 ∧ (rest.length + fill) % 8 = 0 ∧
      CompressedBits (first ++ List.replicate fill false ++ rest ++ second) (c ++ d) ∧
      if first = [] then c ++ t = [] else ∃ x : RlePiece, x.Written t := by
  obtain ⟨e1, e2, bs0, bs, r, fs, ws, ys, pad, h1, h2, h3, h4, h5, h6, h7, h8⟩ := new_known.step p first (by simp; omega)
  have b1 := congrArg List.length h6
  have b2 := congrArg List.length h7
  simp only [List.length_append, bytesBits_length, List.length_replicate, List.length_nil] at b1 b2
  have hr := h3.part.lt
  obtain ⟨e3, e4, bs0', bs', r', fs', ws', ys', pad', g1, g2, g3, g4, g5, g6, g7, g8⟩ := h3.step p second (by omega)
  have hf : first = bytesBits bs0 ++ r := by rw [h6]; rfl
  have hbs : bs = expandAll (fs ++ ws) := h3.neat.all
  have hbs' : bs' = expandAll (fs' ++ ws') := g3.neat.all
  refine ⟨e4, bytesAll fs, bytesAll ws, bytesAll ys', bs0, r, pad, ?_, ?_, ?_, hf, hr, h8, by omega, ?_, ?_⟩
  · simp only [flushEach, List.foldlM_cons, List.foldlM_nil, h1, h2, g1, g2, ok_bind]; rfl
  · refine ⟨bs, pad, h8, by rw [h7, hf], _, h3.neat.divided, by rw [pieces_bytes, hbs], ?_⟩
    rw [← bytesAll_append]; exact frames_written _
  · rw [g5, h5, ← bytesAll_append, h4]; rfl
  · refine ⟨bs', pad', g8, by rw [g7, g6, h7, hf], _, g3.neat.divided, by rw [pieces_bytes, hbs'], ?_⟩
    rw [← bytesAll_append, ← g4]; exact frames_written _
  · by_cases h0 : first = []
    · rw [if_pos h0]
      subst h0
      have hd := h3.neat.waits
      rcases hs : e2.state with _ | _ | _ | _
      · simp only [Waits, setEnc, hs] at hd
        rw [hd.1, hd.2.1]; rfl
      all_goals
        simp only [putAll, List.foldlM_nil, pure_eq_ok, Except.ok.injEq] at h1
        subst h1
        have : (Rle.Encoder.new.flush p) = .ok Rle.Encoder.new := rfl
        rw [this] at h2
        obtain rfl := Except.ok.inj h2
        cases hs
    · rw [if_neg h0]
      obtain ⟨w, rfl, _⟩ := h3.waits_ne (by
        rintro rfl
        have : first.length ≠ 0 := by simpa using h0
        simp at b2; omega)
      exact ⟨w.piece, by rw [bytesAll_one]; exact frame_written w⟩

/-- C82, what is missing: a second flush writes the last piece once more, and what was put last is found at other
positions. -/
theorem C82_flush_twice_violated (p : Profile) :
    (do let e ← flushEach p Rle.Encoder.new [[true]]; return e.encodedValues) = .ok [3, 1] ∧
    (do let e ← flushEach p Rle.Encoder.new [[true], []]; return e.encodedValues) = .ok [3, 1, 5, 1, 1] ∧
    (do let e ← flushEach p Rle.Encoder.new [[true, false], [true]]; return e.encodedValues) = .ok [3, 1, 5, 1, 5] ∧
    (do let e ← flushEach p Rle.Encoder.new [[true, false, true]]; return e.encodedValues) = .ok [3, 5] := by
  cases p <;> decide +kernel

/-- A run that was flushed while it was going on, and goes on: the run is written twice, the second time as a whole. Flushes
before the first bit do nothing. -/
example : (do let e ← flushEach .debug Rle.Encoder.new [List.replicate 24 true, List.replicate 16 true]
              return e.encodedValues) = .ok [6, 255, 10, 255] ∧
    (do let e ← flushEach .debug Rle.Encoder.new [[], [], List.replicate 40 true]
        return e.encodedValues) = .ok [10, 255] := by
  decide +kernel

end Meerkat
