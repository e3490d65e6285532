import Verif.Props.EmptyBuffer

set_option autoImplicit false

/-! # C79: how much the primitive encoder holds back -/

namespace Meerkat
open Spec
variable {α : Type} [Element α] {S : Type}

namespace PrimitiveEnc

/-- A buffer that is not nullable. -/
def plain (vs : List α) : PrimitiveBuffer α := { values := vs, validity := none }

omit [Element α] in
theorem plain_append (rs vs : List α) (hU : rs.length + vs.length < U32_MAX) :
    (plain rs).appendFrom (plain vs) 0 vs.length 0 = .ok (plain (rs ++ vs), vs.length) := by
  simp [plain, PrimitiveBuffer.appendFrom, slice, hU, validityAppendFrom]

/-- A small first buffer is held back. -/
theorem hold_first (p : Profile) (k : Sink S) (e : Encoder α) (s : S) (vs : List α) (he : e.remaining = plain [])
    (hne : vs ≠ []) (hlt : vs.length * Element.size α < e.minBlockSize) (hm : e.minBlockSize < 2 ^ 63) (hU : vs.length < U32_MAX) :
    encode p k (plain vs) (e, s) = (.ok (), ({ e with remaining := plain vs }, s)) := by
  have hpos := List.length_pos_iff.mpr hne
  have hper : vs.length ≤ perBlock α e.minBlockSize ∧ perBlock α e.minBlockSize < 2 ^ 63 := by
    simp only [perBlock]
    rcases Element.size_eq (α := α) with h | h <;> rw [h] at hlt ⊢ <;> split <;> omega
  have hl0 : ¬ e.remaining.len > 0 := by rw [he]; simp [plain, PrimitiveBuffer.len]
  have hlen : (plain vs).len = vs.length := rfl
  rw [encode, encodeFuel, Run.bind_ok (Run.get_apply _)]
  dsimp only
  rw [if_neg hl0, hlen, encodeLoop, if_pos (by rw [hlen]; exact hpos), Run.bind_ok (Run.get_apply _),
    chunk_ok p _ _ _ (show 0 + perBlock α e.minBlockSize < 2 ^ 64 by omega), Run.bind_ok (Run.lift_ok _ _), hlen, Nat.zero_add,
    Nat.min_eq_right hper.1,
    p.sub_ok (Nat.zero_le _), Run.bind_ok (Run.lift_ok _ _), Nat.sub_zero]
  dsimp only
  have ha : e.remaining.appendFrom (plain vs) 0 vs.length 0 = .ok (plain vs, vs.length) := by
    rw [he]
    exact plain_append [] vs (by simpa using hU)
  rw [if_pos hlt, ha, Run.bind_ok (Run.lift_ok _ _)]
  rfl

/-- More values are held back with those already there. -/
theorem hold_more (p : Profile) (k : Sink S) (e : Encoder α) (s : S) (rs vs : List α) (room : Nat)
    (he : e.remaining = plain rs) (hne : rs ≠ []) (hr : p.sub 64 e.minBlockSize (rs.length * Element.size α) = .ok room)
    (hroom : room < 2 ^ 64) (hfit : vs.length ≤ perBlock α room) (hlt : rs.length + vs.length < e.minBlockSize)
    (hU : rs.length + vs.length < U32_MAX) :
    encode p k (plain vs) (e, s) = (.ok (), ({ e with remaining := plain (rs ++ vs) }, s)) := by
  have hpos := List.length_pos_iff.mpr hne
  have hl0 : e.remaining.len > 0 := by rw [he]; exact hpos
  have hlen : (plain vs).len = vs.length := rfl
  have hper : perBlock α room < 2 ^ 63 := by
    simp only [perBlock]
    rcases Element.size_eq (α := α) with h | h <;> rw [h] <;> split <;> omega
  rw [encode, encodeFuel, Run.bind_ok (Run.get_apply _)]
  dsimp only
  rw [if_pos hl0, show e.remaining.len = rs.length by rw [he]; rfl, hr, Run.bind_ok (Run.lift_ok _ _),
    chunk_ok p _ _ _ (by omega), Run.bind_ok (Run.lift_ok _ _), hlen, Nat.zero_add, Nat.min_eq_right hfit]
  have ha : e.remaining.appendFrom (plain vs) 0 vs.length 0 = .ok (plain (rs ++ vs), vs.length) := by
    rw [he]
    exact plain_append rs vs hU
  rw [ha, Run.bind_ok (Run.lift_ok _ _), Run.bind_ok (Run.set_apply _ _)]
  dsimp only
  rw [if_pos (show (plain (rs ++ vs)).len < e.minBlockSize by simpa [plain, PrimitiveBuffer.len] using hlt)]
  rfl

end PrimitiveEnc

/-- C79: what is held back after any calls that return, with any sink: fewer values than a block has bytes; for block sizes that
are multiples of the element size at most one block; with overflow checks less than one value more than a block. -/
theorem C79_primitive_leftovers_partial (p : Profile) (k : Sink S) (nullable : Bool) (m : Nat) (hm : 0 < m)
    (cs : List (EncCall (PrimitiveBuffer α))) (s s' : S) (e : PrimitiveEnc.Encoder α)
    (h : PrimitiveEnc.calls p k cs (PrimitiveEnc.Encoder.new m nullable, s) = (.ok (), (e, s'))) :
    e.minBlockSize = m ∧ e.remaining.len < m ∧
      (m % Element.size α = 0 → e.remaining.len * Element.size α ≤ m) ∧
      (p = .debug → e.remaining.len * Element.size α < m + Element.size α) := by
  have ht := PrimitiveEnc.Tidy.calls p k hm cs (.new hm nullable) h
  exact ⟨ht.size, ht.lt, ht.le, ht.near⟩

/-- C79 fails for every block size that is a multiple of the element size (but for blocks of one value), in both builds: after two
small buffers a whole block is held back. The bound of `C79_primitive_leftovers_partial` is reached. -/
theorem C79_whole_block_held_violated (p : Profile) (k : Sink S) (s : S) (c : Nat) (hc : 2 ≤ c) (hU : c < U32_MAX) (v : α) :
    ∃ e, PrimitiveEnc.calls p k [.encode (PrimitiveEnc.plain (List.replicate (c - 1) v)), .encode (PrimitiveEnc.plain [v])]
        (PrimitiveEnc.Encoder.new (c * Element.size α) false, s) = (.ok (), (e, s)) ∧
      e.remaining.len * Element.size α = c * Element.size α := by
  have hU' : U32_MAX = 2 ^ 32 - 1 := rfl
  obtain ⟨d, rfl⟩ : ∃ d, c = d + 1 := ⟨c - 1, by omega⟩
  have hs : 2 ≤ Element.size α := by rcases Element.size_eq (α := α) with h | h <;> omega
  have hs8 : Element.size α ≤ 8 := by rcases Element.size_eq (α := α) with h | h <;> omega
  have hmul : (d + 1) * Element.size α = d * Element.size α + Element.size α := Nat.succ_mul _ _
  have hlow : d * 2 ≤ d * Element.size α := Nat.mul_le_mul_left _ hs
  have hhigh : d * Element.size α ≤ d * 8 := Nat.mul_le_mul_left _ hs8
  let e0 : PrimitiveEnc.Encoder α := .new ((d + 1) * Element.size α) false
  have h1 := PrimitiveEnc.hold_first p k e0 s (List.replicate d v) rfl
    (by intro h0; have := congrArg List.length h0; simp at this; omega)
    (by rw [List.length_replicate, show e0.minBlockSize = (d + 1) * Element.size α from rfl]; omega)
    (by rw [show e0.minBlockSize = (d + 1) * Element.size α from rfl]; omega) (by rw [List.length_replicate]; omega)
  have h2 := PrimitiveEnc.hold_more p k { e0 with remaining := PrimitiveEnc.plain (List.replicate d v) } s (List.replicate d v) [v]
    (Element.size α) rfl (by intro h0; have := congrArg List.length h0; simp at this; omega)
    (by
      rw [List.length_replicate]
      show p.sub 64 ((d + 1) * Element.size α) (d * Element.size α) = _
      rw [p.sub_ok (by omega), hmul, Nat.add_sub_cancel_left])
    (by omega)
    (by
      simp only [PrimitiveEnc.perBlock, List.length_cons, List.length_nil]
      rcases Element.size_eq (α := α) with h | h <;> rw [h] <;> decide)
    (by
      rw [List.length_replicate]
      show d + 1 < (d + 1) * Element.size α
      omega)
    (by rw [List.length_replicate, List.length_cons, List.length_nil]; omega)
  refine ⟨{ e0 with remaining := PrimitiveEnc.plain (List.replicate d v ++ [v]) }, ?_, ?_⟩
  · simp only [PrimitiveEnc.calls, Nat.add_sub_cancel]
    rw [Run.bind_ok h1, Run.bind_ok h2]
    rfl
  · simp [PrimitiveEnc.plain, PrimitiveBuffer.len]

/-- C79 fails, without overflow checks, for every block size that is no multiple of the element size: one value less than a block
has bytes is held back. This bound of `C79_primitive_leftovers_partial` is reached, too. -/
theorem C79_many_blocks_held_violated (k : Sink S) (s : S) (m : Nat) (hm : m % Element.size α ≠ 0) (h1 : Element.size α < m)
    (hU : m < U32_MAX) (v : α) :
    ∃ (bufs : List (List α)) (e : PrimitiveEnc.Encoder α), PrimitiveEnc.calls .release k (bufs.map fun vs => .encode (PrimitiveEnc.plain vs))
        (PrimitiveEnc.Encoder.new m false, s) = (.ok (), (e, s)) ∧ e.remaining.len = m - 1 ∧ bufs.length = 3 ∧
      ∀ vs ∈ bufs, ∀ x ∈ vs, x = v := by
  have hU' : U32_MAX = 2 ^ 32 - 1 := rfl
  have hq : 1 ≤ m / Element.size α ∧ m / Element.size α + 1 < m ∧ m / Element.size α * Element.size α < m ∧
      m - m / Element.size α * Element.size α < Element.size α ∧
      m < (m / Element.size α + 1) * Element.size α ∧ (m / Element.size α + 1) * Element.size α < m + 2 ^ 32 := by
    rcases Element.size_eq (α := α) with h | h <;> rw [h] at hm h1 ⊢ <;> omega
  generalize m / Element.size α = q at hq
  obtain ⟨q1, q2, q3, q4, q5, q6⟩ := hq
  have hne : ∀ n, 1 ≤ n → List.replicate n v ≠ [] := by
    intro n hn h0
    have := congrArg List.length h0
    simp at this
    omega
  let e0 : PrimitiveEnc.Encoder α := .new m false
  have hm0 : e0.minBlockSize = m := rfl
  have g1 := PrimitiveEnc.hold_first .release k e0 s (List.replicate q v) rfl (hne q q1)
    (by rw [List.length_replicate, hm0]; exact q3) (by rw [hm0]; omega) (by rw [List.length_replicate]; omega)
  have g2 := PrimitiveEnc.hold_more .release k { e0 with remaining := PrimitiveEnc.plain (List.replicate q v) } s
    (List.replicate q v) [v] (m - q * Element.size α) rfl (hne q q1)
    (by
      rw [List.length_replicate]
      exact Profile.sub_ok _ (show q * Element.size α ≤ m by omega))
    (by omega)
    (by
      simp only [PrimitiveEnc.perBlock, List.length_cons, List.length_nil]
      generalize hx : m - q * Element.size α = x at *
      rw [Nat.div_eq_of_lt q4, if_pos (by rw [Nat.mod_eq_of_lt q4]; omega)]
      omega)
    (by rw [List.length_replicate]; exact q2)
    (by rw [List.length_replicate, List.length_cons, List.length_nil]; omega)
  have hlen : (List.replicate q v ++ [v]).length = q + 1 := by simp
  have hsub : Profile.release.sub 64 m ((q + 1) * Element.size α) = .ok (m + 2 ^ 64 - (q + 1) * Element.size α) := by
    generalize (q + 1) * Element.size α = x at q5 q6 ⊢
    simp only [Profile.sub]
    rw [if_neg (by omega)]
    congr 1
    omega
  have g3 := PrimitiveEnc.hold_more .release k { e0 with remaining := PrimitiveEnc.plain (List.replicate q v ++ [v]) } s
    (List.replicate q v ++ [v]) (List.replicate (m - 1 - (q + 1)) v) (m + 2 ^ 64 - (q + 1) * Element.size α) rfl (by simp)
    (by rw [hlen]; exact hsub)
    (by omega)
    (by
      generalize (q + 1) * Element.size α = x at q5 q6 ⊢
      simp only [PrimitiveEnc.perBlock, List.length_replicate]
      rcases Element.size_eq (α := α) with h | h <;> rw [h] <;> split <;> omega)
    (by rw [hlen, List.length_replicate]; show _ < m; omega)
    (by rw [hlen, List.length_replicate]; omega)
  refine ⟨[List.replicate q v, [v], List.replicate (m - 1 - (q + 1)) v],
    { e0 with remaining := PrimitiveEnc.plain (List.replicate q v ++ [v] ++ List.replicate (m - 1 - (q + 1)) v) }, ?_, ?_, rfl, ?_⟩
  · simp only [PrimitiveEnc.calls, List.map_cons, List.map_nil]
    rw [Run.bind_ok g1, Run.bind_ok g2, Run.bind_ok g3]
    rfl
  · simp [PrimitiveEnc.plain, PrimitiveBuffer.len]
    omega
  · intro vs hvs x hx
    simp only [List.mem_cons, List.not_mem_nil, or_false] at hvs
    rcases hvs with rfl | rfl | rfl
    · exact List.eq_of_mem_replicate hx
    · exact List.mem_singleton.1 hx
    · exact List.eq_of_mem_replicate hx

/-- At the block size of the code: 32 values of four bytes are held back although they fill a block of 128 bytes. -/
example : ((PrimitiveEnc.calls (α := Int32) .debug recorder
    [.encode (PrimitiveEnc.plain (List.replicate 31 7)), .encode (PrimitiveEnc.plain [7])]
    (PrimitiveEnc.Encoder.new 128 false, [])).2.1.remaining.len * 4,
    (PrimitiveEnc.calls (α := Int32) .debug recorder
    [.encode (PrimitiveEnc.plain (List.replicate 31 7)), .encode (PrimitiveEnc.plain [7])]
    (PrimitiveEnc.Encoder.new 128 false, [])).2.2) = (128, []) := by decide +kernel

end Meerkat
