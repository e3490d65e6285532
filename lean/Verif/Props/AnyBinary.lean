import Verif.Props.NullHistory
import Verif.Props.BinaryEnc

set_option autoImplicit false

/-! # C06, C11 and C36 for binary buffers with any past -/

namespace Meerkat
open BinaryEnc Spec

/-- The bytes between consecutive offsets are the items, in order: `data` is their concatenation and offset `i` is the number
of bytes of the first `i` of them. -/
structure BinaryBuffer.HoldsItems (b : BinaryBuffer) (items : List Bytes) : Prop where
  data : b.data = items.flatten
  offsets : b.offsets = (List.range (items.length + 1)).map fun i => (items.take i).flatten.length

namespace AnyBinary

theorem offsetsOf_eq (items : List Bytes) :
    offsetsOf 0 items = (List.range (items.length + 1)).map fun i => (items.take i).flatten.length := by
  refine List.ext_getElem? fun i => ?_
  by_cases h : i ≤ items.length
  · rw [offsetsOf_get 0 items i h, List.getElem?_map, List.getElem?_range (by omega)]; simp
  · rw [List.getElem?_eq_none (by simp [offsetsOf]; omega), List.getElem?_eq_none (by simp; omega)]

theorem items_iff {b : BinaryBuffer} {items : List Bytes} : Items b items ↔ b.HoldsItems items :=
  ⟨fun h => ⟨h.data, by rw [h.offsets, offsetsOf_eq]⟩, fun h => ⟨h.data, by rw [h.offsets, offsetsOf_eq]⟩⟩

theorem items_new (nullable : Bool) : Items (.new nullable) [] := ⟨rfl, rfl⟩

theorem items_append {b b' : BinaryBuffer} {items : List Bytes} {v : Bytes} (h : Items b items) (ha : b.append v = .ok b') :
    Items b' (items ++ [v]) := by
  simp only [BinaryBuffer.append] at ha
  split at ha
  · obtain ⟨w, _, ha⟩ := bind_eq_ok ha
    cases ha
    refine ⟨by simp [h.data], ?_⟩
    simp only [h.offsets, offsetsOf_append, h.data, List.length_append]
    simp [endOffsets]
  · cases ha

theorem items_appendNull {b b' : BinaryBuffer} {items : List Bytes} (h : Items b items) (ha : b.appendNull = .ok b') :
    Items b' items := by
  simp only [BinaryBuffer.appendNull] at ha
  obtain ⟨w, _, ha⟩ := bind_eq_ok ha
  cases ha
  exact ⟨h.data, h.offsets⟩

theorem items_appendFrom (p : Profile) {b b' src : BinaryBuffer} {items sitems : List Bytes} {start e pos ret : Nat}
    (h : Items b items) (hs : Items src sitems) (ha : b.appendFrom p src start e pos = .ok (b', ret)) :
    Items b' (items ++ (sitems.drop start).take (e - start)) := by
  have hlen : src.offsets.length = sitems.length + 1 := by rw [hs.offsets]; simp [offsetsOf]
  have hb : start ≤ sitems.length ∧ e ≤ sitems.length := by
    simp only [BinaryBuffer.appendFrom, index] at ha
    obtain ⟨x, hx, ha⟩ := bind_eq_ok ha
    obtain ⟨y, hy, ha⟩ := bind_eq_ok ha
    constructor
    · split at hx
      · rename_i h'; have := (List.getElem?_eq_some_iff.1 h').1; omega
      · cases hx
    · split at hy
      · rename_i h'; have := (List.getElem?_eq_some_iff.1 h').1; omega
      · cases hy
  by_cases hse : start ≤ e
  · have hsplit : sitems = sitems.take start ++ (sitems.drop start).take (e - start) ++ sitems.drop e := by
      have h3 : sitems.drop e = (sitems.drop start).drop (e - start) := by rw [List.drop_drop, Nat.add_sub_cancel' hse]
      rw [h3, List.append_assoc, List.take_append_drop, List.take_append_drop]
    have h1 : (sitems.take start).length = start := by simp; omega
    have h2 : (sitems.take start ++ (sitems.drop start).take (e - start)).length = e := by simp; omega
    rw [hsplit] at hs
    exact (Items.appendFrom p h hs (by rw [h1, h2]; exact ha)).1
  · have h0 : e - start = 0 := by omega
    simp only [h0, List.take_zero, List.append_nil]
    simp only [BinaryBuffer.appendFrom, index, h0, BinaryBuffer.appendFromOffsets, hs.offsets, offsetsOf_get 0 sitems start hb.1,
      offsetsOf_get 0 sitems e hb.2, ok_bind, slice, Nat.zero_add] at ha
    obtain ⟨n, _, ha⟩ := bind_eq_ok ha
    split at ha
    · rename_i hr
      simp only [ok_bind] at ha
      split at ha
      · obtain ⟨⟨w, k⟩, _, ha⟩ := bind_eq_ok ha
        cases ha
        have hz : (sitems.take e).flatten.length ≤ (sitems.take start).flatten.length := by
          rw [show sitems.take e = (sitems.take start).take e by rw [List.take_take, Nat.min_eq_left (by omega)]]
          conv => rhs; rw [← List.take_append_drop e (sitems.take start), List.flatten_append, List.length_append]
          omega
        refine ⟨?_, by simp [h.offsets]⟩
        rw [show (sitems.take e).flatten.length - (sitems.take start).flatten.length = 0 by omega]
        simp [h.data]
      · cases ha
    · cases ha

theorem items {p : Profile} {nullable : Bool} {b : BinaryBuffer} (h : b.Reach p nullable) : ∃ items, Items b items := by
  induction h with
  | new nullable => exact ⟨_, items_new nullable⟩
  | append _ h ih => obtain ⟨_, ih⟩ := ih; exact ⟨_, items_append ih h⟩
  | appendNull _ h ih => obtain ⟨_, ih⟩ := ih; exact ⟨_, items_appendNull ih h⟩
  | clear _ ih => obtain ⟨_, ih⟩ := ih; exact ⟨_, ih.clear⟩
  | appendFrom _ _ h ih ih' =>
    obtain ⟨_, ih⟩ := ih
    obtain ⟨_, ih'⟩ := ih'
    exact ⟨_, items_appendFrom p ih ih' h⟩

theorem data_length {p : Profile} {nullable : Bool} {b : BinaryBuffer} (h : b.Reach p nullable) :
    b.data.length ≤ U32_MAX := by
  induction h with
  | new nullable => exact Nat.zero_le _
  | append _ h _ =>
    simp only [BinaryBuffer.append] at h
    split at h
    · obtain ⟨w, _, h⟩ := bind_eq_ok h
      cases h
      assumption
    · cases h
  | appendNull _ h ih =>
    simp only [BinaryBuffer.appendNull] at h
    obtain ⟨w, _, h⟩ := bind_eq_ok h
    cases h
    exact ih
  | clear _ _ => exact Nat.zero_le _
  | appendFrom _ _ h _ _ =>
    simp only [BinaryBuffer.appendFrom] at h
    obtain ⟨_, _, h⟩ := bind_eq_ok h
    obtain ⟨_, _, h⟩ := bind_eq_ok h
    obtain ⟨_, _, h⟩ := bind_eq_ok h
    obtain ⟨_, _, h⟩ := bind_eq_ok h
    obtain ⟨_, _, h⟩ := bind_eq_ok h
    split at h
    · obtain ⟨⟨w, k⟩, _, h⟩ := bind_eq_ok h
      cases h
      exact Nat.le_of_lt (by assumption)
    · cases h

end AnyBinary

open AnyBinary

/-- C06 and C11 for buffers with any past, `clear`, copies and inverted ranges included: the offsets always divide the data
into items; `append` adds its argument to them, `append_null` nothing, `append_from` the items of the range (none if it is
inverted), and after `clear` there are none. -/
theorem C06_any_history (p : Profile) (nullable : Bool) (b : BinaryBuffer) (hb : b.Reach p nullable) :
    ∃ items, b.HoldsItems items ∧ b.len = items.length ∧ b.data.length ≤ 2 ^ 32 - 1 ∧
      (∀ v b', b.append v = .ok b' → b'.HoldsItems (items ++ [v])) ∧
      (∀ b', b.appendNull = .ok b' → b'.HoldsItems items) ∧
      b.clear.HoldsItems [] ∧
      ∀ other (src : BinaryBuffer), src.Reach p other → ∃ sitems, src.HoldsItems sitems ∧
        ∀ start e pos b' ret, b.appendFrom p src start e pos = .ok (b', ret) →
          b'.HoldsItems (items ++ (sitems.drop start).take (e - start)) := by
  obtain ⟨is, h⟩ := items hb
  refine ⟨is, items_iff.1 h, h.len, data_length hb, fun v b' ha => items_iff.1 (items_append h ha),
    fun b' ha => items_iff.1 (items_appendNull h ha), items_iff.1 h.clear, fun other src hs => ?_⟩
  obtain ⟨ss, hs⟩ := items hs
  exact ⟨ss, items_iff.1 hs, fun start e pos b' ret ha => items_iff.1 (items_appendFrom p h hs ha)⟩

/-- C36 for buffers with any past: `encode` is given buffers that were cleared, copied into or filled in any other way. -/
theorem C36_any_buffers (p q : Profile) (nullable : Bool) (m : Nat) (hm : 0 < m) (bs : List BinaryBuffer)
    (hb : ∀ b ∈ bs, ∃ other, b.Reach p other) :
    (∀ {S : Type} (k : Sink S) (s s' : S) (e : Encoder),
      encodeAll p k bs (Encoder.new m nullable, s) = (.ok (), (e, s')) →
        e.minBlockSize = m ∧ e.remaining.data.length < m) ∧
    ((bs.map (·.len)).sum < 2 ^ 63 →
      ∀ b ∈ (encodeAll p recorder bs (Encoder.new m nullable, [])).2.2,
        ∃ d, blockData q b.2 = some d ∧ m ≤ d.length) := by
  have hall : ∀ b ∈ bs, ∃ is, Items b is := fun b h => by obtain ⟨_, h⟩ := hb b h; exact items h
  refine ⟨fun k s s' e h => ?_, fun hlen b hbm => ?_⟩
  · obtain ⟨h1, held, h2, h3⟩ := encodeAll_small p k m hm bs [] (Encoder.new m nullable) s e s' hall rfl
      (items_new nullable) (by simpa using hm) h
    exact ⟨h1, by rw [h2.data]; exact h3⟩
  · have key : ∀ l : List BinaryBuffer, (∀ b ∈ l, ∃ is, Items b is) → ∃ iss : List (List Bytes), l.length = iss.length ∧
        (∀ x ∈ l.zip iss, Items x.1 x.2) ∧ iss.flatten.length = (l.map (·.len)).sum ∧
        ∀ is ∈ iss, ∃ b ∈ l, Items b is := by
      intro l
      induction l with
      | nil => intro _; exact ⟨[], rfl, by simp, by simp, by simp⟩
      | cons b l ih =>
        intro h
        obtain ⟨is, h1⟩ := h b (by simp)
        obtain ⟨iss, g1, g2, g3, g4⟩ := ih fun b hb => h b (by simp [hb])
        refine ⟨is :: iss, by simp [g1], ?_, ?_, ?_⟩
        · intro x hx
          rw [List.zip_cons_cons, List.mem_cons] at hx
          rcases hx with rfl | hx
          · exact h1
          · exact g2 x hx
        · simp [g3, h1.len]
        · intro is' hi
          rcases List.mem_cons.1 hi with rfl | hi
          · exact ⟨b, by simp, h1⟩
          · obtain ⟨b', hb', h'⟩ := g4 is' hi
            exact ⟨b', by simp [hb'], h'⟩
    obtain ⟨iss, g1, g2, g3, g4⟩ := key bs hall
    obtain ⟨new, h1, h2⟩ := encodeAll_blocks p q m hm iss bs ⟨g1, g2⟩
      (by
        intro is hi
        obtain ⟨b, hbs, h⟩ := g4 is hi
        obtain ⟨_, hr⟩ := hb b hbs
        have h1 := data_length hr
        have h2 : U32_MAX = 2 ^ 32 - 1 := rfl
        rw [h.data] at h1
        omega)
      [] (Encoder.new m nullable) [] rfl (items_new nullable) (by rw [List.length_nil]; omega)
    rw [h1, List.nil_append] at hbm
    exact h2 b hbm

/-- A buffer that was filled, cleared and got two items of another one, which the encoder then holds back. -/
example : ∃ b : BinaryBuffer, b.Reach .release false ∧ b.HoldsItems [[1], [2, 3]] := by
  have push : ∀ (a : BinaryBuffer) v, a.Reach .release false → a.data.length + v.length ≤ U32_MAX → a.validity = none →
      ∃ a' : BinaryBuffer, a'.Reach .release false ∧ a' = ⟨a.data ++ v, a.offsets ++ [(a.data ++ v).length], none⟩ := by
    intro a v ha hv hn
    refine ⟨_, .append (v := v) ha ?_, rfl⟩
    simp only [BinaryBuffer.append, List.length_append, if_pos hv, hn, validityAppendTrue]
    rfl
  have hU : U32_MAX = 2 ^ 32 - 1 := rfl
  obtain ⟨s1, g1, e1⟩ := push (.new false) [9, 9] (.new false) (by rw [hU]; decide) rfl
  obtain ⟨s2, g2, e2⟩ := push s1 [1] g1 (by subst e1; rw [hU]; decide) (by subst e1; rfl)
  obtain ⟨s3, g3, e3⟩ := push s2 [2, 3] g2 (by subst e1 e2; rw [hU]; decide) (by subst e1 e2; rfl)
  obtain ⟨⟨c, ret⟩, h, hc⟩ := NullHistory.exists_res (P := fun x : BinaryBuffer × Nat => x.1 = ⟨[1, 2, 3], [0, 1, 3], none⟩)
    (x := s1.clear.appendFrom .release s3 1 3 0) (by subst e1 e2 e3; decide +kernel)
  subst hc
  exact ⟨_, .appendFrom (.clear g1) g3 h, ⟨rfl, by decide⟩⟩

end Meerkat
