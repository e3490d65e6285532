import Verif.Props.AnyBinary
import Verif.Props.AnyBitmap

set_option autoImplicit false

/-! # C10 and C11 for buffers with any past -/

namespace Meerkat
open Spec

/-- What `append_from` did to the validity bitmaps: there are none, or the destination's got, by `append`, the bits that the
source's shows from `pos` up to and including the `n`-th set one, and `ret` is the position after it. -/
def CopiedValidity (dst src dst' : Option Bitmap) (pos n ret : Nat) : Prop :=
  match dst, src with
  | none, none => dst' = none ∧ ret = n
  | some d, some s => ∃ ss p d', s.Reads ss ∧ PrefixWithSet n (ss.drop pos) p ∧ d.appendAll p = .ok d' ∧ dst' = some d' ∧
      ret = pos + p.length
  | _, _ => False

/-- When it can: there are none, or the source's has enough set bits. -/
def CanCopyValidity (dst src : Option Bitmap) (pos n : Nat) : Prop :=
  match dst, src with
  | none, none => True
  | some _, some s => ∃ ss, s.Reads ss ∧ n ≤ (ss.drop pos).count true
  | _, _ => False

namespace AnyBuffer

/-- The bitmap of the buffer was reached by calls too. -/
def Past (v : Option Bitmap) : Prop := ∀ m, v = some m → m.Reach

theorem past_new (nullable : Bool) : Past (newValidity nullable) := by
  intro m h
  cases nullable with
  | true => simp only [newValidity, if_true, Option.some.injEq] at h; rw [← h]; exact .new
  | false => simp [newValidity] at h

theorem past_clear {v : Option Bitmap} (h : Past v) : Past (v.map Bitmap.clear) := by
  intro m hm
  cases v with
  | none => cases hm
  | some w => cases hm; exact .clear (h w rfl)

theorem past_true {v v' : Option Bitmap} (h : Past v) (ha : validityAppendTrue v = .ok v') : Past v' := by
  cases v with
  | none => cases ha; exact h
  | some w =>
    simp only [validityAppendTrue] at ha
    obtain ⟨d, hd, ha⟩ := bind_eq_ok ha
    cases ha
    intro m hm; cases hm
    exact .append (h w rfl) hd

theorem past_false {v v' : Option Bitmap} (h : Past v) (ha : validityAppendFalse v = .ok v') : Past v' := by
  cases v with
  | none => cases ha
  | some w =>
    simp only [validityAppendFalse] at ha
    obtain ⟨d, hd, ha⟩ := bind_eq_ok ha
    cases ha
    intro m hm; cases hm
    exact .append (h w rfl) hd

theorem past_from {v v' src : Option Bitmap} {pos n ret : Nat} (h : Past v) (hs : Past src)
    (ha : validityAppendFrom v src pos n = .ok (v', ret)) : Past v' := by
  cases src with
  | none =>
    cases v with
    | none => simp only [validityAppendFrom] at ha; cases ha; exact h
    | some v => simp only [validityAppendFrom] at ha; cases ha
  | some s =>
    cases v with
    | none => simp only [validityAppendFrom] at ha; cases ha
    | some v =>
      simp only [validityAppendFrom] at ha
      obtain ⟨⟨d, k⟩, hd, ha⟩ := bind_eq_ok ha
      cases ha
      intro m hm; cases hm
      exact .appendFrom (h v rfl) (hs s rfl) hd

theorem primitive {α : Type} {nullable : Bool} {b : PrimitiveBuffer α} (h : b.Reach nullable) : Past b.validity := by
  induction h with
  | new nullable => exact past_new nullable
  | append _ h ih =>
    simp only [PrimitiveBuffer.append] at h
    obtain ⟨v, hv, h⟩ := bind_eq_ok h
    cases h; exact past_true ih hv
  | appendNull _ h ih =>
    simp only [PrimitiveBuffer.appendNull] at h
    obtain ⟨v, hv, h⟩ := bind_eq_ok h
    cases h; exact past_false ih hv
  | clear _ ih => exact past_clear ih
  | appendFrom _ _ h ih ih' =>
    simp only [PrimitiveBuffer.appendFrom] at h
    obtain ⟨_, _, h⟩ := bind_eq_ok h
    split at h
    · obtain ⟨⟨v, k⟩, hv, h⟩ := bind_eq_ok h
      cases h; exact past_from ih ih' hv
    · cases h

theorem binary {p : Profile} {nullable : Bool} {b : BinaryBuffer} (h : b.Reach p nullable) : Past b.validity := by
  induction h with
  | new nullable => exact past_new nullable
  | append _ h ih =>
    simp only [BinaryBuffer.append] at h
    split at h
    · obtain ⟨v, hv, h⟩ := bind_eq_ok h
      cases h; exact past_true ih hv
    · cases h
  | appendNull _ h ih =>
    simp only [BinaryBuffer.appendNull] at h
    obtain ⟨v, hv, h⟩ := bind_eq_ok h
    cases h; exact past_false ih hv
  | clear _ ih => exact past_clear ih
  | appendFrom _ _ h ih ih' =>
    simp only [BinaryBuffer.appendFrom] at h
    obtain ⟨_, _, h⟩ := bind_eq_ok h
    obtain ⟨_, _, h⟩ := bind_eq_ok h
    obtain ⟨_, _, h⟩ := bind_eq_ok h
    obtain ⟨_, _, h⟩ := bind_eq_ok h
    obtain ⟨_, _, h⟩ := bind_eq_ok h
    split at h
    · obtain ⟨⟨v, k⟩, hv, h⟩ := bind_eq_ok h
      cases h; exact past_from ih ih' hv
    · cases h

theorem copied {v v' src : Option Bitmap} {pos n ret : Nat} (h : Past v) (hs : Past src)
    (ha : validityAppendFrom v src pos n = .ok (v', ret)) : CopiedValidity v src v' pos n ret := by
  cases src with
  | none =>
    cases v with
    | none => simp only [validityAppendFrom] at ha; cases ha; exact ⟨rfl, rfl⟩
    | some v => simp only [validityAppendFrom] at ha; cases ha
  | some s =>
    cases v with
    | none => simp only [validityAppendFrom] at ha; cases ha
    | some v =>
      simp only [validityAppendFrom] at ha
      obtain ⟨⟨d, k⟩, hd, ha⟩ := bind_eq_ok ha
      cases ha
      obtain ⟨ss, h1, h2, h3, h4⟩ := C03_any_bitmap (h v rfl) (hs s rfl) pos n
      have h5 : n ≤ (ss.drop pos).count true := by
        apply Nat.le_of_not_lt; intro h5
        obtain ⟨e, he⟩ := h3.2 h5
        rw [hd] at he; cases he
      obtain ⟨p, hp⟩ := h4 h5
      obtain ⟨d', h6, h7⟩ := h2 p hp
      rw [hd] at h7; cases h7
      exact ⟨ss, p, d, h1, hp, h6, rfl, rfl⟩

theorem returns {v src : Option Bitmap} {pos n : Nat} (h : Past v) (hs : Past src) :
    (∃ r, validityAppendFrom v src pos n = .ok r) ↔ CanCopyValidity v src pos n := by
  cases src with
  | none =>
    cases v with
    | none => simp [validityAppendFrom, CanCopyValidity]
    | some v => simp [validityAppendFrom, CanCopyValidity]
  | some s =>
    cases v with
    | none => simp [validityAppendFrom, CanCopyValidity]
    | some v =>
      obtain ⟨ss, h1, h2, h3, h4⟩ := C03_any_bitmap (h v rfl) (hs s rfl) pos n
      constructor
      · rintro ⟨r, hr⟩
        simp only [validityAppendFrom] at hr
        obtain ⟨⟨d, k⟩, hd, _⟩ := bind_eq_ok hr
        refine ⟨ss, h1, Nat.le_of_not_lt fun h5 => ?_⟩
        obtain ⟨e, he⟩ := h3.2 h5
        rw [hd] at he; cases he
      · rintro ⟨ss', h1', h5⟩
        obtain rfl := AnyBitmap.reads_unique h1' h1
        obtain ⟨p, hp⟩ := h4 h5
        obtain ⟨d', h6, h7⟩ := h2 p hp
        exact ⟨_, by simp only [validityAppendFrom, h7, ok_bind]; rfl⟩

end AnyBuffer

/-- C10 for buffers with any past: a call of `append_from` returns exactly when the range is inside the source, the result stays
below 2^32 - 1 values, both buffers are nullable or neither is, and a nullable source shows enough values from the given row
on; it then adds exactly the values of the range, and the validity that the source shows up to the last of them. -/
theorem C10_any_history {α : Type} {nd ns : Bool} {dst src : PrimitiveBuffer α} (hd : dst.Reach nd) (hs : src.Reach ns)
    (start e pos : Nat) :
    ((∃ r, dst.appendFrom src start e pos = .ok r) ↔ start ≤ e ∧ e ≤ src.len ∧ dst.len + (e - start) < 2 ^ 32 - 1 ∧
      CanCopyValidity dst.validity src.validity pos (e - start)) ∧
    ∀ dst' ret, dst.appendFrom src start e pos = .ok (dst', ret) →
      dst'.values = dst.values ++ (src.values.drop start).take (e - start) ∧
      CopiedValidity dst.validity src.validity dst'.validity pos (e - start) ret := by
  have hU : U32_MAX = 2 ^ 32 - 1 := rfl
  have h1 := AnyBuffer.primitive hd
  have h2 := AnyBuffer.primitive hs
  refine ⟨⟨?_, ?_⟩, ?_⟩
  · rintro ⟨r, h⟩
    simp only [PrimitiveBuffer.appendFrom, slice] at h
    split at h
    case isFalse => cases h
    rename_i hr
    simp only [ok_bind] at h
    split at h
    · rename_i hlt
      obtain ⟨x, hv, _⟩ := bind_eq_ok h
      simp only [List.length_append, List.length_take, List.length_drop, Nat.min_eq_left (show e - start ≤ src.values.length - start by omega)] at hlt
      exact ⟨hr.1, hr.2, by simp only [PrimitiveBuffer.len]; omega, (AnyBuffer.returns h1 h2).1 ⟨x, hv⟩⟩
    · cases h
  · rintro ⟨g1, g2, g3, g4⟩
    simp only [PrimitiveBuffer.len] at g2 g3
    obtain ⟨⟨v, k⟩, hv⟩ := (AnyBuffer.returns h1 h2).2 g4
    refine ⟨(⟨dst.values ++ (src.values.drop start).take (e - start), v⟩, k), ?_⟩
    · simp only [PrimitiveBuffer.appendFrom, slice, if_pos (And.intro g1 g2), ok_bind, List.length_append, List.length_take,
        List.length_drop, Nat.min_eq_left (show e - start ≤ src.values.length - start by omega)]
      rw [if_pos (by omega), hv]
      rfl
  · intro dst' ret h
    simp only [PrimitiveBuffer.appendFrom, slice] at h
    split at h
    case isFalse => cases h
    rename_i hr
    simp only [ok_bind] at h
    split at h
    · obtain ⟨⟨v, k⟩, hv, h⟩ := bind_eq_ok h
      cases h
      exact ⟨rfl, AnyBuffer.copied h1 h2 hv⟩
    · cases h

/-- C11 for buffers with any past and ranges that are not inverted: what `append_from` does with the validity (C06_any_history
has the items). -/
theorem C11_any_history {p : Profile} {nd ns : Bool} {dst src dst' : BinaryBuffer} (hd : dst.Reach p nd)
    (hs : src.Reach p ns) {start e pos ret : Nat} (hse : start ≤ e)
    (h : dst.appendFrom p src start e pos = .ok (dst', ret)) :
    CopiedValidity dst.validity src.validity dst'.validity pos (e - start) ret := by
  simp only [BinaryBuffer.appendFrom] at h
  obtain ⟨_, _, h⟩ := bind_eq_ok h
  obtain ⟨_, _, h⟩ := bind_eq_ok h
  obtain ⟨n, hn, h⟩ := bind_eq_ok h
  obtain ⟨_, _, h⟩ := bind_eq_ok h
  obtain ⟨_, _, h⟩ := bind_eq_ok h
  rw [Profile.sub_ok p hse] at hn
  cases hn
  split at h
  · obtain ⟨⟨v, k⟩, hv, h⟩ := bind_eq_ok h
    cases h
    exact AnyBuffer.copied (AnyBuffer.binary hd) (AnyBuffer.binary hs) hv
  · cases h

/-- Two values of a buffer whose bitmap shows a null between them. -/
example {dst src : PrimitiveBuffer Nat} {d s : Bitmap} (hd : dst.Reach true) (hs : src.Reach true) (h1 : dst.validity = some d)
    (h2 : src.validity = some s) (h3 : src.values = [7, 8]) (h4 : s.Reads [true, false, true]) (h5 : dst.values = [5]) :
    ∃ dst', dst.appendFrom src 0 2 0 = .ok (dst', 3) ∧ dst'.values = [5, 7, 8] := by
  obtain ⟨hr, hx⟩ := C10_any_history hd hs 0 2 0
  obtain ⟨⟨dst', ret⟩, h⟩ := hr.2 ⟨by omega, by simp [PrimitiveBuffer.len, h3], by simp [PrimitiveBuffer.len, h5],
    by rw [h1, h2]; exact ⟨_, h4, by decide⟩⟩
  obtain ⟨g1, g2⟩ := hx _ _ h
  rw [h1, h2] at g2
  obtain ⟨ss, p, d', k1, k2, k3, k4, k5⟩ := g2
  obtain rfl := AnyBitmap.reads_unique k1 h4
  have hp : some p = some [true, false, true] := ((takeSet_spec _ _ _).mpr k2).symm.trans rfl
  cases hp
  subst k5
  exact ⟨dst', h, by rw [g1, h5, h3]; rfl⟩

end Meerkat
