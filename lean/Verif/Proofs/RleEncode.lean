import Verif.Model.Rle
import Verif.Spec.Bits
import Verif.Proofs.Varint
import Verif.Proofs.Bitmap
import Verif.Proofs.TakeSet

set_option autoImplicit false

/-! # The RLE encoder: invariant over the bytes appended so far -/

namespace Meerkat.Rle
open Spec Varint

/-- The bitmap bytes a frame stands for. -/
def Frame.expand : Frame → Bytes
  | .run n b => List.replicate n b
  | .bitmap bs => bs

/-- The encoding of a frame. -/
def Frame.bytes : Frame → Bytes
  | .run n b => varintBytes (2 * n) ++ [b]
  | .bitmap bs => varintBytes (2 * bs.length + 1) ++ bs

/-- Expansion of a list of frames. -/
def expandAll (fs : List Frame) : Bytes := fs.flatMap Frame.expand
/-- Encoding of a list of frames. -/
def bytesAll (fs : List Frame) : Bytes := fs.flatMap Frame.bytes

@[simp] theorem expandAll_nil : expandAll [] = [] := rfl
@[simp] theorem bytesAll_nil : bytesAll [] = [] := rfl
@[simp] theorem expandAll_append (a b : List Frame) : expandAll (a ++ b) = expandAll a ++ expandAll b := by
  simp [expandAll]
@[simp] theorem bytesAll_append (a b : List Frame) : bytesAll (a ++ b) = bytesAll a ++ bytesAll b := by
  simp [bytesAll]
@[simp] theorem expandAll_one (f : Frame) : expandAll [f] = f.expand := by simp [expandAll]
@[simp] theorem bytesAll_one (f : Frame) : bytesAll [f] = f.bytes := by simp [bytesAll]

namespace Encoder

/-- What is still pending, by state. -/
def Pending (e : Encoder) (pend : Bytes) : Prop :=
  match e.state with
  | .init => pend = [] ∧ e.buffer = []
  | .literal => pend = e.buffer ∧ ∃ pre, e.buffer = pre ++ [e.lastValue]
  | .startOfRun => pend = e.buffer ∧ ∃ pre, e.buffer = pre ++ [e.lastValue, e.lastValue] ∧
      e.runStartPos = pre.length ∧ e.repeatCount = 2
  | .run => e.buffer = [] ∧ pend = List.replicate e.repeatCount e.lastValue ∧ 3 ≤ e.repeatCount

/-- Invariant: the frames emitted so far and the pending bytes make up the bytes appended. -/
structure Core (e : Encoder) (bs : Bytes) (fs : List Frame) (pend : Bytes) : Prop where
  enc : e.encodedValues = bytesAll fs
  all : bs = expandAll fs ++ pend
  pending : e.Pending pend
  initEmpty : e.state = .init → fs = []
  size : e.encodedValues.length ≤ (expandAll fs).length + (expandAll fs).length / 64 +
    (if e.state = .run then 1 else 0)
  full : ∀ f ∈ fs, f.expand ≠ []

theorem emitRun_ok (e : Encoder) (n : Nat) (b : Byte) (hn : n < 2 ^ 63) :
    e.emitRun n b = .ok { e with encodedValues := e.encodedValues ++ (Frame.run n b).bytes } := by
  have hs : shl 64 n 1 = 2 * n := by simp only [shl, Nat.shiftLeft_eq]; omega
  have hl := varintBytes_length_le_ten (v := 2 * n) (by omega)
  simp only [emitRun, hs]
  rw [encodeVarint_ok _ _ (by simpa [MAX_VARINT_LEN] using hl)]
  simp only [ok_bind]
  rw [slice, if_pos (by simp)]
  simp [Frame.bytes]

theorem emitLit_ok (e : Encoder) (pre post : Bytes) (hb : e.buffer = pre ++ post) (hne : e.buffer ≠ [])
    (hn : pre.length < 2 ^ 62) :
    e.emitBitmapLiteral pre.length =
      .ok { e with encodedValues := e.encodedValues ++ (Frame.bitmap pre).bytes } := by
  have hs : shl 64 pre.length 1 ||| 1 = 2 * pre.length + 1 := by
    have h1 : shl 64 pre.length 1 = 2 * pre.length := by simp only [shl, Nat.shiftLeft_eq]; omega
    rw [h1]
    have := Nat.two_pow_add_eq_or_of_lt (i := 1) (b := 1) (by omega) pre.length
    simp at this; omega
  have hl := varintBytes_length_le_ten (v := 2 * pre.length + 1) (by omega)
  have hemp : e.buffer.isEmpty = false := by simpa using hne
  simp only [emitBitmapLiteral, hs, hemp]
  rw [encodeVarint_ok _ _ (by simpa [MAX_VARINT_LEN] using hl)]
  simp only [ok_bind, Bool.false_eq_true, if_false]
  rw [slice, if_pos (by simp), hb]
  simp only [ok_bind]
  rw [slice, if_pos (by simp)]
  simp [Frame.bytes]

theorem run_saves {n : Nat} (h3 : 3 ≤ n) (hn : n < 2 ^ 63) : (varintBytes (2 * n)).length + 2 ≤ n := by
  by_cases h : n < 64
  · have := varintBytes_length_le (v := 2 * n) (k := 1) (by omega) (by omega)
    omega
  · have := varintBytes_length_le_ten (v := 2 * n) (by omega)
    omega

theorem lit_cost {m : Nat} (hm : m < 2 ^ 62) : (varintBytes (2 * m + 1)).length ≤ 1 + m / 64 := by
  by_cases h : m < 64
  · have := varintBytes_length_le (v := 2 * m + 1) (k := 1) (by omega) (by omega)
    omega
  · by_cases h2 : m < 8192
    · have := varintBytes_length_le (v := 2 * m + 1) (k := 2) (by omega) (by omega)
      omega
    · have := varintBytes_length_le_ten (v := 2 * m + 1) (by omega)
      omega

theorem full_append {fs : List Frame} {f : Frame} (h : ∀ g ∈ fs, g.expand ≠ []) (hf : f.expand ≠ []) :
    ∀ g ∈ fs ++ [f], g.expand ≠ [] := by
  intro g hg
  rcases List.mem_append.1 hg with hg | hg
  · exact h g hg
  · rw [List.mem_singleton.1 hg]; exact hf

theorem replicate_ne {n : Nat} {b : Byte} (h : 3 ≤ n) : (Frame.run n b).expand ≠ [] := by
  intro h0
  have := congrArg List.length h0
  simp only [Frame.expand, List.length_replicate, List.length_nil] at this
  omega

theorem append_ok (p : Profile) (e : Encoder) (bs pend : Bytes) (fs : List Frame) (cur : Byte)
    (h : e.Core bs fs pend) (hlen : bs.length < 2 ^ 62) :
    ∃ e' fs' pend', e.append p cur = .ok e' ∧ e'.Core (bs ++ [cur]) fs' pend' ∧
      e'.byte = e.byte ∧ e'.bitPos = e.bitPos ∧ e'.state ≠ .init := by
  obtain ⟨henc, hall, hp, hini, hsize, hfull⟩ := h
  have hple : pend.length ≤ bs.length := by rw [hall]; simp
  cases hst : e.state with
  | init =>
    simp only [Pending, hst] at hp
    obtain ⟨rfl, hb⟩ := hp
    refine ⟨{ e with state := .literal, buffer := e.buffer ++ [cur], lastValue := cur }, fs, [cur],
      by simp [append, appendMatch, hst], ⟨henc, by simp [hall], ?_, ?_, ?_, hfull⟩, rfl, rfl, ?_⟩
    · simp [Pending, hb]
    · simp
    · simpa [hst] using hsize
    · simp
  | literal =>
    simp only [Pending, hst] at hp
    obtain ⟨rfl, pre, hb⟩ := hp
    by_cases hc : e.lastValue = cur
    · have hlen1 : e.buffer.length - 1 = pre.length := by simp [hb]
      refine ⟨{ e with repeatCount := 2, runStartPos := pre.length, state := .startOfRun,
                       buffer := e.buffer ++ [cur], lastValue := cur },
        fs, e.buffer ++ [cur], ?_, ⟨henc, by simp [hall], ?_, ?_, ?_, hfull⟩, rfl, rfl, ?_⟩
      · simp only [append, appendMatch, hst, if_pos hc]
        rw [Profile.sub_ok _ (by simp [hb])]
        simp [hlen1]
      · simp only [Pending]
        exact ⟨by trivial, pre, by simp [hb, hc], by trivial, by trivial⟩
      · simp
      · simpa [hst] using hsize
      · simp
    · refine ⟨{ e with buffer := e.buffer ++ [cur], lastValue := cur }, fs, e.buffer ++ [cur],
        by simp [append, appendMatch, hst, hc],
        ⟨henc, by simp [hall], ?_, ?_, ?_, hfull⟩, rfl, rfl, ?_⟩
      · simp only [Pending, hst]; exact ⟨by trivial, e.buffer, rfl⟩
      · simp [hst]
      · simpa [hst] using hsize
      · simp [hst]
  | startOfRun =>
    simp only [Pending, hst] at hp
    obtain ⟨rfl, pre, hb, hrs, hrc⟩ := hp
    by_cases hc : e.lastValue = cur
    · have h3 : e.repeatCount + 1 = MIN_RUN_LEN := by simp [hrc, MIN_RUN_LEN]
      have hall' : bs = expandAll fs ++ pre ++ [cur, cur] := by rw [hall, hb, hc]; simp
      by_cases hz : pre = []
      · subst hz
        refine ⟨{ e with repeatCount := 3, buffer := [], state := .run, lastValue := cur }, fs,
          List.replicate 3 cur, ?_, ⟨henc, ?_, ?_, ?_, ?_, hfull⟩, rfl, rfl, ?_⟩
        · simp [append, appendMatch, hst, hc, hrc, MIN_RUN_LEN, hrs]
        · rw [hall']; simp
        · simp [Pending]
        · simp
        · simp [hst] at hsize ⊢; omega
        · simp
      · have hpos : e.runStartPos > 0 := by
          rw [hrs]; exact List.length_pos_iff.mpr hz
        have hprelen : pre.length < 2 ^ 62 := by
          have : pre.length ≤ e.buffer.length := by rw [hb]; simp
          omega
        have hem := emitLit_ok { e with buffer := e.buffer ++ [cur], repeatCount := e.repeatCount + 1 }
          pre ([e.lastValue, e.lastValue] ++ [cur]) (by simp [hb]) (by simp) hprelen
        refine ⟨{ e with repeatCount := 3, buffer := [], state := .run, lastValue := cur,
                         encodedValues := e.encodedValues ++ (Frame.bitmap pre).bytes },
          fs ++ [.bitmap pre], List.replicate 3 cur, ?_, ⟨?_, ?_, ?_, ?_, ?_, full_append hfull (show (Frame.bitmap pre).expand ≠ [] from hz)⟩, rfl, rfl, ?_⟩
        · simp only [append, appendMatch, hst, hc, ne_eq, not_true_eq_false, if_false, if_pos h3,
            if_pos hpos]
          rw [hst, hrs, hc] at hem
          rw [hrs, hem]
          simp [hrc]
        · simp [henc]
        · rw [hall']; simp [Frame.expand]
        · simp [Pending]
        · simp
        · have := lit_cost hprelen
          simp only [hst, List.length_append, expandAll_append, expandAll_one, Frame.expand,
            Frame.bytes, reduceCtorEq, if_false, if_true] at hsize ⊢
          omega
        · simp
    · refine ⟨{ e with repeatCount := 0, runStartPos := 0, state := .literal,
                       buffer := e.buffer ++ [cur], lastValue := cur }, fs, e.buffer ++ [cur],
        by simp [append, appendMatch, hst, hc, transitionToLiteral],
        ⟨henc, by simp [hall], ?_, ?_, ?_, hfull⟩, rfl, rfl, ?_⟩
      · simp only [Pending]; exact ⟨by trivial, e.buffer, rfl⟩
      · simp
      · simpa [hst] using hsize
      · simp
  | run =>
    simp only [Pending, hst] at hp
    obtain ⟨hb, rfl, h3⟩ := hp
    by_cases hc : e.lastValue = cur
    · refine ⟨{ e with repeatCount := e.repeatCount + 1, lastValue := cur }, fs,
        List.replicate (e.repeatCount + 1) cur, by simp [append, appendMatch, hst, hc],
        ⟨henc, ?_, ?_, ?_, ?_, hfull⟩, rfl, rfl, ?_⟩
      · rw [hall, hc, List.replicate_succ']; simp
      · simp [Pending, hst, hb]; omega
      · simp [hst]
      · simpa [hst] using hsize
      · simp [hst]
    · have hrc : e.repeatCount < 2 ^ 63 := by simp at hple; omega
      have hem := emitRun_ok e e.repeatCount e.lastValue hrc
      refine ⟨{ e with encodedValues := e.encodedValues ++ (Frame.run e.repeatCount e.lastValue).bytes,
                       repeatCount := 0, runStartPos := 0, state := .literal,
                       buffer := e.buffer ++ [cur], lastValue := cur },
        fs ++ [.run e.repeatCount e.lastValue], [cur],
        by simp only [append, appendMatch, hst, ne_eq, hc, not_false_eq_true, if_true, hem, ok_bind,
          transitionToLiteral, pure_eq_ok], ⟨?_, ?_, ?_, ?_, ?_, full_append hfull (replicate_ne h3)⟩, rfl, rfl, ?_⟩
      · simp [henc]
      · rw [hall]; simp [Frame.expand]
      · simp [Pending, hb]
      · simp
      · have := run_saves h3 hrc
        simp only [hst, List.length_append, expandAll_append, expandAll_one, Frame.expand,
          Frame.bytes, reduceCtorEq, if_false, if_true, List.length_cons, List.length_nil,
          List.length_replicate] at hsize ⊢
        omega
      · simp

/-- The part of `flush` after the last byte. -/
def finish (e : Encoder) : Res Encoder :=
  match e.state with
  | .init => .ok e
  | .literal => e.emitBitmapLiteral e.buffer.length
  | .startOfRun => e.emitBitmapLiteral e.buffer.length
  | .run => e.emitRun e.repeatCount e.lastValue

theorem flush_eq (p : Profile) (e : Encoder) :
    e.flush p = (do let e ← (if e.bitPos > 0 then e.append p e.byte else pure e); e.finish) := by
  simp only [flush, finish]
  split <;> rfl

theorem finish_ok (e : Encoder) (bs pend : Bytes) (fs : List Frame) (h : e.Core bs fs pend)
    (hlen : bs.length < 2 ^ 62) :
    ∃ e' fs', e.finish = .ok e' ∧ e'.encodedValues = bytesAll fs' ∧ expandAll fs' = bs ∧
      e'.encodedValues.length ≤ bs.length + bs.length / 64 + (if bs = [] then 0 else 1) ∧
      ∀ f ∈ fs', f.expand ≠ [] := by
  obtain ⟨henc, hall, hp, hini, hsize, hfull⟩ := h
  have hple : pend.length ≤ bs.length := by rw [hall]; simp
  have hlit : pend = e.buffer → e.buffer ≠ [] → e.state ≠ .run → ∃ e' fs',
      e.emitBitmapLiteral e.buffer.length = .ok e' ∧ e'.encodedValues = bytesAll fs' ∧
      expandAll fs' = bs ∧
      e'.encodedValues.length ≤ bs.length + bs.length / 64 + (if bs = [] then 0 else 1) ∧
      ∀ f ∈ fs', f.expand ≠ [] := by
    intro hpb hne hst
    have hbl : e.buffer.length < 2 ^ 62 := by rw [← hpb]; omega
    refine ⟨_, fs ++ [.bitmap e.buffer], emitLit_ok e e.buffer [] (by simp) hne hbl, ?_, ?_, ?_,
      full_append hfull (show (Frame.bitmap e.buffer).expand ≠ [] from hne)⟩
    · simp [henc]
    · rw [hall, hpb]; simp [Frame.expand]
    · have hne' : bs ≠ [] := by rw [hall, hpb]; simp [hne]
      have := lit_cost hbl
      have hbs : bs.length = (expandAll fs).length + e.buffer.length := by rw [hall, hpb]; simp
      simp only [if_neg hst, if_neg hne', Frame.bytes, List.length_append] at hsize ⊢
      omega
  cases hst : e.state with
  | init =>
    simp only [Pending, hst] at hp
    obtain ⟨rfl, _⟩ := hp
    have hf := hini hst
    subst hf
    refine ⟨e, [], by simp [finish, hst], henc, by rw [hall]; simp, ?_, hfull⟩
    rw [henc]; simp
  | literal =>
    simp only [Pending, hst] at hp
    obtain ⟨hpb, pre, hb⟩ := hp
    simpa [finish, hst] using hlit hpb (by simp [hb]) (by simp [hst])
  | startOfRun =>
    simp only [Pending, hst] at hp
    obtain ⟨hpb, pre, hb, _⟩ := hp
    simpa [finish, hst] using hlit hpb (by simp [hb]) (by simp [hst])
  | run =>
    simp only [Pending, hst] at hp
    obtain ⟨hb, rfl, h3⟩ := hp
    have hrc : e.repeatCount < 2 ^ 63 := by simp at hple; omega
    refine ⟨_, fs ++ [.run e.repeatCount e.lastValue], by simp only [finish, hst]; exact emitRun_ok e _ _ hrc,
      ?_, ?_, ?_, full_append hfull (replicate_ne h3)⟩
    · simp [henc]
    · rw [hall]; simp [Frame.expand]
    · have hne' : bs ≠ [] := by
        rw [hall]; simp; omega
      have hbs : bs.length = (expandAll fs).length + e.repeatCount := by rw [hall]; simp
      have := run_saves h3 hrc
      simp only [hst, if_true, if_neg hne', Frame.bytes, List.length_append, List.length_cons, List.length_nil] at hsize ⊢
      omega

theorem new_core : new.Core [] [] [] where
  enc := rfl
  all := rfl
  pending := ⟨rfl, rfl⟩
  initEmpty _ := rfl
  size := Nat.le_refl _
  full := by simp

end Encoder
end Meerkat.Rle
