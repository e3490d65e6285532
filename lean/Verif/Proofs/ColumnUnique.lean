import Verif.Proofs.BinaryUnique
import Verif.Proofs.BinaryColumn

set_option autoImplicit false

/-! # The blocks of a column, one after the other and without an index, determine its rows -/

namespace Meerkat.Varint
open Spec

theorem isVarint_append {a b r s : Bytes} (ha : IsVarint a) (hb : IsVarint b) (h : a ++ r = b ++ s) : a = b := by
  induction a generalizing b with
  | nil => cases ha
  | cons x a ih =>
    cases b with
    | nil => cases hb
    | cons y b =>
      simp only [List.cons_append, List.cons.injEq] at h
      obtain ⟨rfl, h⟩ := h
      cases a with
      | nil =>
        cases b with
        | nil => rfl
        | cons z b => simp only [IsVarint] at ha hb; omega
      | cons w a =>
        cases b with
        | nil => simp only [IsVarint] at ha hb; omega
        | cons z b => rw [ih ha.2 hb.2 h]

theorem varintBytes_append {a b : Nat} {r s : Bytes} (h : varintBytes a ++ r = varintBytes b ++ s) : a = b ∧ r = s := by
  have h1 := isVarint_append (varintBytes_isVarint a) (varintBytes_isVarint b) h
  refine ⟨by rw [← varintBytes_leb a, h1, varintBytes_leb], ?_⟩
  rw [h1] at h
  exact List.append_cancel_left h

end Meerkat.Varint

namespace Meerkat.Rle
open Spec Varint

theorem frame_append {f g : Frame} {r s : Bytes} (h : f.bytes ++ r = g.bytes ++ s) : f = g ∧ r = s := by
  cases f with
  | run n b =>
    cases g with
    | run k c =>
      simp only [Frame.bytes, List.append_assoc] at h
      obtain ⟨h1, h2⟩ := varintBytes_append h
      simp only [List.cons_append, List.nil_append, List.cons.injEq] at h2
      exact ⟨by rw [h2.1, show n = k by omega], h2.2⟩
    | bitmap cs =>
      simp only [Frame.bytes, List.append_assoc] at h
      have := (varintBytes_append h).1
      omega
  | bitmap bs =>
    cases g with
    | run k c =>
      simp only [Frame.bytes, List.append_assoc] at h
      have := (varintBytes_append h).1
      omega
    | bitmap cs =>
      simp only [Frame.bytes, List.append_assoc] at h
      obtain ⟨h1, h2⟩ := varintBytes_append h
      obtain ⟨rfl, rfl⟩ := List.append_inj h2 (by omega)
      exact ⟨rfl, rfl⟩

/-- Of two sequences of frames at the beginning of the same bytes one is the beginning of the other. -/
theorem frames_append : ∀ {fs gs : List Frame} {r s : Bytes}, bytesAll fs ++ r = bytesAll gs ++ s →
    (∃ t, gs = fs ++ t ∧ r = bytesAll t ++ s) ∨ (∃ t, fs = gs ++ t ∧ s = bytesAll t ++ r) := by
  intro fs
  induction fs with
  | nil => intro gs r s h; exact .inl ⟨gs, rfl, by simpa using h⟩
  | cons f fs ih =>
    intro gs r s h
    cases gs with
    | nil => exact .inr ⟨f :: fs, rfl, by simpa using h.symm⟩
    | cons g gs =>
      simp only [bytesAll, List.flatMap_cons, List.append_assoc] at h
      obtain ⟨rfl, h'⟩ := frame_append h
      rcases ih h' with ⟨t, rfl, ht⟩ | ⟨t, rfl, ht⟩
      · exact .inl ⟨t, rfl, ht⟩
      · exact .inr ⟨t, rfl, ht⟩

/-- Bits that end with a set one: frames behind the encoding of a part of them would hold more set bits. -/
theorem frames_more {fs t : List Frame} {a : List Bool} {n pad : Nat} (hpad : pad < 8)
    (h : bytesBits (expandAll (fs ++ t)) = (a ++ [true]) ++ List.replicate pad false)
    (hc : (bytesBits (expandAll fs)).count true = n) (hn : (a ++ [true]).count true = n)
    (ht : ∀ f ∈ t, f.expand ≠ []) : t = [] := by
  cases t with
  | nil => rfl
  | cons f t =>
    exfalso
    have hf := List.length_pos_iff.2 (ht f (by simp))
    rw [expandAll_append, bytesBits_append] at h
    have hl := congrArg List.length h
    have hcnt := congrArg (List.count true) h
    simp only [List.count_append, List.count_replicate, List.length_append, List.length_replicate, bytesBits_length,
      List.length_cons, List.length_nil] at hl hcnt hn
    have hz : (bytesBits (expandAll (f :: t))).count true = 0 := by
      simp at hcnt hn; omega
    have hlen : 1 ≤ (expandAll (f :: t)).length := by
      simp only [expandAll, List.flatMap_cons, List.length_append]; omega
    have hmem : true ∈ bytesBits (expandAll (f :: t)) := by
      have hd := congrArg (List.drop (8 * (expandAll fs).length)) h
      rw [List.drop_append_of_le_length (by simp), List.drop_of_length_le (by simp), List.nil_append,
        List.append_assoc, List.drop_append_of_le_length (by omega)] at hd
      rw [hd]
      simp
    exact absurd hz (Nat.pos_iff_ne_zero.1 (List.count_pos_iff.2 hmem))

/-- What follows the encoding of bits that end with a set one can be told from it, given the number of set bits. -/
theorem rleBytes_append {a b : List Bool} {r s : Bytes} (ha : a.length < 2 ^ 64) (hb : b.length < 2 ^ 64)
    (ea : ∃ l, a = l ++ [true]) (eb : ∃ l, b = l ++ [true]) (hc : a.count true = b.count true)
    (h : rleBytes a ++ r = rleBytes b ++ s) : rleBytes a = rleBytes b ∧ r = s := by
  obtain ⟨fs, p1, h1, h2, h3, _, h5⟩ := rleBytes_frames a ha
  obtain ⟨gs, p2, k1, k2, k3, _, k5⟩ := rleBytes_frames b hb
  obtain ⟨la, ea⟩ := ea
  obtain ⟨lb, eb⟩ := eb
  have c1 : (bytesBits (expandAll fs)).count true = a.count true := by
    rw [h2, List.count_append, List.count_replicate]; simp
  have c2 : (bytesBits (expandAll gs)).count true = b.count true := by
    rw [k2, List.count_append, List.count_replicate]; simp
  rw [h1, k1] at h ⊢
  rcases frames_append h with ⟨t, rfl, ht⟩ | ⟨t, rfl, ht⟩
  · have : t = [] := frames_more (a := lb) (n := a.count true) k3 (by rw [k2, eb]) c1 (by rw [← eb, hc])
      fun f hf => k5 f (List.mem_append_right _ hf)
    subst this
    exact ⟨by simp, by simpa using ht⟩
  · have : t = [] := frames_more (a := la) (n := b.count true) h3 (by rw [h2, ea]) c2 (by rw [← ea, hc])
      fun f hf => h5 f (List.mem_append_right _ hf)
    subst this
    exact ⟨by simp, by simpa using ht.symm⟩

end Meerkat.Rle

namespace Meerkat.BinaryEnc
open Spec Varint Offsets

/-- The last item is not empty. -/
def EndsFull (g : List (Option Bytes)) : Prop := ∃ l v, valuesOf g = l ++ [v] ∧ v ≠ []

/-- Groups as they are written one after the other: only the last can be smaller than a block, the others
end with the item that completes them. -/
def Filled (m : Nat) : List (List (Option Bytes)) → Prop
  | [] => True
  | g :: gs => (byteCount g < m ∧ gs = []) ∨ (m ≤ byteCount g ∧ EndsFull g ∧ Filled m gs)

theorem fillStep_full {m : Nat} {held b : List (Option Bytes)} (hlt : byteCount held < m) :
    ∀ g ∈ (fillStep m held b).1, EndsFull g := by
  simp only [fillStep]
  cases hf : fill (m - byteCount held) (valuesOf b) with
  | none => simp
  | some j =>
    simp only [List.mem_singleton, forall_eq]
    obtain ⟨h1, h2, h3⟩ := fill_some hf
    have h4 := fill_pos hf (by omega)
    have hj := h3 (j - 1) (by omega)
    have hs : (valuesOf b).take j = (valuesOf b).take (j - 1) ++ [(valuesOf b)[j - 1]] := by
      have := List.take_append_getElem (l := valuesOf b) (i := j - 1) (by omega)
      rw [show j - 1 + 1 = j by omega] at this
      exact this.symm
    refine ⟨valuesOf held ++ (valuesOf b).take (j - 1), (valuesOf b)[j - 1], ?_, fun h0 => ?_⟩
    · rw [valuesOf_append, takeVals_values, hs, List.append_assoc]
    · rw [hs, h0] at h2
      simp at h2
      simp at hj
      omega

theorem fillGroups_filled {m : Nat} {nullable : Bool} (bufs : List (List (Option Bytes))) : ∀ stale held,
    byteCount held < m → Manageable m nullable stale held bufs → Filled m (fillGroups m held bufs) := by
  induction bufs with
  | nil =>
    intro stale held h _
    simp only [fillGroups]
    split
    · trivial
    · exact .inl ⟨h, rfl⟩
  | cons b bufs ih =>
    intro stale held h hman
    simp only [Manageable] at hman
    obtain ⟨h1, _, _, h5⟩ := hman
    have hrest := ih _ _ (fillStep_small h h1) h5
    have hv := fillStep_values (b := b) h
    have hf := fillStep_full (b := b) h
    rw [fillGroups]
    have hone : (fillStep m held b).1 = [] ∨ ∃ g, (fillStep m held b).1 = [g] := by
      simp only [fillStep]; split <;> simp
    rcases hone with h0 | ⟨g, h0⟩
    · rw [h0]; exact hrest
    · rw [h0] at hv hf ⊢
      exact .inr ⟨(hv g (by simp)).2, hf g (by simp), hrest⟩

/-- The header, the data and the padded lengths of the first of several blocks. -/
theorem blockBytes_head {nullable : Bool} {g1 g2 : List (Option Bytes)} {r1 r2 : Bytes} (h1 : Group nullable g1)
    (h2 : Group nullable g2) (h : blockBytes nullable g1 ++ r1 = blockBytes nullable g2 ++ r2) :
    (valuesOf g1).flatten = (valuesOf g2).flatten ∧
    padded ((valuesOf g1).map List.length) = padded ((valuesOf g2).map List.length) := by
  simp only [blockBytes, List.append_assoc] at h
  obtain ⟨hbc, h⟩ := varintBytes_append h
  obtain ⟨hd, h⟩ := List.append_inj h hbc
  simp only [offsetBytes, List.cons_append, List.cons.injEq] at h
  obtain ⟨hw, hrest⟩ := h
  have w1 := width_le_32 (lengths_small h1.size)
  have w2 := width_le_32 (lengths_small h2.size)
  have hw : width ((valuesOf g1).map List.length) = width ((valuesOf g2).map List.length) := by
    have h3 := congrArg UInt8.toNat hw
    simp at h3
    omega
  have hsum : ((valuesOf g1).map List.length).sum = ((valuesOf g2).map List.length).sum := by
    rw [sum_lengths, sum_lengths, hd]
  refine ⟨hd, ?_⟩
  simp only [Util.ceil8_eq] at hrest
  rw [Nat.mul_comm (width _), Nat.mul_comm (width _)] at hrest
  rcases Nat.le_total (valuesOf g1).length (valuesOf g2).length with hle | hle
  · exact packed_padded (by simpa using h1.count) (by simpa using h2.count) h1.readable h2.readable hw hsum
      (by simpa using hle) hrest
  · exact (packed_padded (by simpa using h2.count) (by simpa using h1.count) h2.readable h1.readable hw.symm hsum.symm
      (by simpa using hle) hrest.symm).symm

theorem padded_last {xs ys l : List Nat} {n : Nat} (hx : xs.length ≤ ys.length) (hn : n ≠ 0)
    (he : ys = l ++ [n]) (h : padded xs = padded ys) : xs.length = ys.length := by
  have h1 := padded_getD xs (ys.length - 1)
  rw [h, padded_getD, he] at h1
  apply Classical.byContradiction
  intro hne
  have hl : ys.length = l.length + 1 := by rw [he]; simp
  rw [List.getD_eq_getElem?_getD, List.getD_eq_getElem?_getD, List.getElem?_eq_none (l := xs) (by simp; omega)] at h1
  simp at h1
  exact hn h1

/-- Full blocks have as many items as their bytes say. -/
theorem full_count {g1 g2 : List (Option Bytes)} (f1 : EndsFull g1) (f2 : EndsFull g2)
    (h : padded ((valuesOf g1).map List.length) = padded ((valuesOf g2).map List.length)) :
    (valuesOf g1).length = (valuesOf g2).length := by
  obtain ⟨l1, v1, e1, n1⟩ := f1
  obtain ⟨l2, v2, e2, n2⟩ := f2
  rcases Nat.le_total (valuesOf g1).length (valuesOf g2).length with hle | hle
  · have := padded_last (xs := (valuesOf g1).map List.length) (ys := (valuesOf g2).map List.length)
      (l := l2.map List.length) (n := v2.length) (by simpa using hle)
      (fun h => n2 (List.length_eq_zero_iff.1 h)) (by rw [e2]; simp) h
    simpa using this
  · have := padded_last (xs := (valuesOf g2).map List.length) (ys := (valuesOf g1).map List.length)
      (l := l1.map List.length) (n := v1.length) (by simpa using hle)
      (fun h => n1 (List.length_eq_zero_iff.1 h)) (by rw [e1]; simp) h.symm
    simpa using this.symm

/-- Nothing but the number of its items is needed to tell a block from what follows. -/
theorem blockBytes_append {nullable : Bool} {g1 g2 : List (Option Bytes)} {r1 r2 : Bytes} (n1 : g1 ≠ []) (n2 : g2 ≠ [])
    (h1 : Group nullable g1) (h2 : Group nullable g2) (hc : (valuesOf g1).length = (valuesOf g2).length)
    (h : blockBytes nullable g1 ++ r1 = blockBytes nullable g2 ++ r2) : g1 = g2 ∧ r1 = r2 := by
  have hb : blockBytes nullable g1 = blockBytes nullable g2 ∧ r1 = r2 := by
    obtain ⟨hd, hp⟩ := blockBytes_head h1 h2 h
    have hbc : byteCount g1 = byteCount g2 := by rw [byteCount, byteCount, hd]
    have hlens : (valuesOf g1).map List.length = (valuesOf g2).map List.length := by
      simp only [padded] at hp
      exact (List.append_inj hp (by simpa using hc)).1
    simp only [blockBytes, hbc, hd, hlens, List.append_assoc] at h ⊢
    have h := List.append_cancel_left (List.append_cancel_left (List.append_cancel_left h))
    cases nullable with
    | false => exact ⟨rfl, h⟩
    | true =>
      have hends : ∀ {g : List (Option Bytes)}, g ≠ [] → EndsWithValue g → ∃ l, validityOf g = l ++ [true] := by
        intro g hne he
        rcases he with he | ⟨v, he⟩
        · exact absurd he hne
        · obtain ⟨l, rfl⟩ := List.getLast?_eq_some_iff.1 he
          exact ⟨validityOf l, by simp [validityOf]⟩
      have hl : ∀ {g : List (Option Bytes)}, Group true g → (validityOf g).length < 2 ^ 64 := by
        intro g hg
        have := hg.len
        simp only [validityOf, List.length_map]; omega
      simp only [if_true] at h ⊢
      obtain ⟨k1, k2⟩ := Rle.rleBytes_append (hl h1) (hl h2) (hends n1 h1.ends) (hends n2 h2.ends)
        (by rw [count_validityOf, count_validityOf, hc]) h
      exact ⟨by rw [k1], k2⟩
  have q1 := readBinary_blockBytes .debug nullable g1 h1.ends h1.accepts h1.len h1.size h1.count h1.readable
  have q2 := readBinary_blockBytes .debug nullable g2 h2.ends h2.accepts h2.len h2.size h2.count h2.readable
  rw [hc, hb.1, q2] at q1
  exact ⟨(Option.some.inj q1).symm, hb.2⟩

theorem blockBytes_ne_nil (nullable : Bool) (g : List (Option Bytes)) : blockBytes nullable g ≠ [] := by
  intro h
  have := congrArg List.length h
  simp [blockBytes, Offsets.offsetBytes] at this

/-- A nullable column: the bytes of its blocks determine the groups of its rows. -/
theorem column_inj_nullable {m : Nat} : ∀ {gs1 gs2 : List (List (Option Bytes))}, Filled m gs1 → Filled m gs2 →
    (∀ g ∈ gs1 ++ gs2, g ≠ [] ∧ Group true g) →
    gs1.flatMap (blockBytes true) = gs2.flatMap (blockBytes true) → gs1 = gs2 := by
  intro gs1
  induction gs1 with
  | nil =>
    intro gs2 _ _ _ h
    cases gs2 with
    | nil => rfl
    | cons g gs => simp [blockBytes_ne_nil] at h
  | cons g1 gs1 ih =>
    intro gs2 f1 f2 hall h
    cases gs2 with
    | nil => simp [blockBytes_ne_nil] at h
    | cons g2 gs2 =>
      obtain ⟨n1, k1⟩ := hall g1 (by simp)
      obtain ⟨n2, k2⟩ := hall g2 (by simp)
      simp only [List.flatMap_cons] at h
      obtain ⟨hd, hp⟩ := blockBytes_head k1 k2 h
      have hbc : byteCount g1 = byteCount g2 := by rw [byteCount, byteCount, hd]
      simp only [Filled] at f1 f2
      rcases f1 with ⟨a1, rfl⟩ | ⟨a1, a2, a3⟩
      · rcases f2 with ⟨b1, rfl⟩ | ⟨b1, _⟩
        · simp only [List.flatMap_nil, List.append_nil] at h
          rw [blockBytes_inj n1 n2 k1 k2 h]
        · omega
      · rcases f2 with ⟨b1, rfl⟩ | ⟨b1, b2, b3⟩
        · omega
        · obtain ⟨rfl, h'⟩ := blockBytes_append n1 n2 k1 k2 (full_count a2 b2 hp) h
          rw [ih a3 b3 (fun g hg => hall g (by simp at hg ⊢; rcases hg with h | h <;> simp [h])) h']

/-- Items that are empty, at the end of a column, set aside. -/
theorem padded_items {vs ws : List Bytes} (hle : vs.length ≤ ws.length) (hd : vs.flatten = ws.flatten)
    (hp : padded (vs.map List.length) = padded (ws.map List.length)) (h128 : ws.length ≤ 128) :
    ws = vs ++ List.replicate (ws.length - vs.length) [] := by
  have hl : ws.map List.length = vs.map List.length ++ List.replicate (ws.length - vs.length) 0 := by
    have h1 := congrArg (List.take ws.length) hp
    simp only [padded, List.length_map] at h1
    rw [List.take_append, List.take_append, List.take_of_length_le (by simpa using hle),
      List.take_of_length_le (l := ws.map List.length) (by simp), List.take_replicate, List.take_replicate] at h1
    simp only [List.length_map, Nat.sub_self, Nat.zero_min, List.replicate_zero, List.append_nil] at h1
    rw [← h1]
    congr 2
    omega
  have hc := cut_flatten ws
  have hc2 := cut_flatten (vs ++ List.replicate (ws.length - vs.length) [])
  rw [List.map_append, List.map_replicate, List.length_nil, ← hl] at hc2
  have hf : (vs ++ List.replicate (ws.length - vs.length) []).flatten = ws.flatten := by
    rw [List.flatten_append, ← hd]; simp
  rw [hf, hc] at hc2
  exact Option.some.inj hc2

/-- A column that is not nullable: the bytes of its blocks determine its rows, but for empty items at the end. -/
theorem column_inj_nonnull {m : Nat} : ∀ {gs1 gs2 : List (List (Option Bytes))}, Filled m gs1 → Filled m gs2 →
    (∀ g ∈ gs1 ++ gs2, g ≠ [] ∧ Group false g) →
    gs1.flatMap (blockBytes false) = gs2.flatMap (blockBytes false) →
    ∃ n, valuesOf gs2.flatten = valuesOf gs1.flatten ++ List.replicate n [] ∨
      valuesOf gs1.flatten = valuesOf gs2.flatten ++ List.replicate n [] := by
  intro gs1
  induction gs1 with
  | nil =>
    intro gs2 _ _ _ h
    cases gs2 with
    | nil => exact ⟨0, .inl (by simp)⟩
    | cons g gs => simp [blockBytes_ne_nil] at h
  | cons g1 gs1 ih =>
    intro gs2 f1 f2 hall h
    cases gs2 with
    | nil => simp [blockBytes_ne_nil] at h
    | cons g2 gs2 =>
      obtain ⟨n1, k1⟩ := hall g1 (by simp)
      obtain ⟨n2, k2⟩ := hall g2 (by simp)
      simp only [List.flatMap_cons] at h
      obtain ⟨hd, hp⟩ := blockBytes_head k1 k2 h
      have hbc : byteCount g1 = byteCount g2 := by rw [byteCount, byteCount, hd]
      simp only [Filled] at f1 f2
      rcases f1 with ⟨a1, rfl⟩ | ⟨a1, a2, a3⟩
      · rcases f2 with ⟨b1, rfl⟩ | ⟨b1, _⟩
        · simp only [List.flatten_cons, List.flatten_nil, List.append_nil]
          rcases Nat.le_total (valuesOf g1).length (valuesOf g2).length with hle | hle
          · exact ⟨_, .inl (padded_items hle hd hp k2.count)⟩
          · exact ⟨_, .inr (padded_items hle hd.symm hp.symm k1.count)⟩
        · omega
      · rcases f2 with ⟨b1, rfl⟩ | ⟨b1, b2, b3⟩
        · omega
        · obtain ⟨rfl, h'⟩ := blockBytes_append n1 n2 k1 k2 (full_count a2 b2 hp) h
          obtain ⟨n, hn⟩ := ih a3 b3 (fun g hg => hall g (by simp at hg ⊢; rcases hg with h | h <;> simp [h])) h'
          refine ⟨n, ?_⟩
          simp only [List.flatten_cons, valuesOf_append, List.append_assoc]
          rcases hn with hn | hn
          · exact .inl (by rw [hn])
          · exact .inr (by rw [hn])

end Meerkat.BinaryEnc
