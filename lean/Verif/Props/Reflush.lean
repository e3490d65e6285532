import Verif.Props.Retry

set_option autoImplicit false

/-!
# C71, C37: using an encoder after `flush`

`flush` writes the rows held back and keeps them: `remaining` is not cleared. To whatever is done with the
encoder afterwards, the call is visible only in the count of rows.
-/

namespace Meerkat
open Spec

/-- The same call `n` times, up to the first that fails. -/
def Run.times {σ : Type} (m : Run σ Unit) : Nat → Run σ Unit
  | 0 => pure ()
  | n + 1 => do
    m
    Run.times m n

namespace PrimitiveEnc
variable {α : Type} [Element α]

/-- A `flush` that returned normally changed nothing but the count of rows. -/
theorem flush_ahead {p : Profile} {e e0 : Encoder α} {l l' : List (Nat × Bytes)} (hP : SizeOk e)
    (h : flush p recorder (e, l) = (.ok (), (e0, l'))) :
    e.numRows ≤ e0.numRows ∧ Ahead (e0.numRows - e.numRows) e e0 := by
  by_cases hl : e.remaining.len > 0
  · rw [flush_apply p recorder e l hl] at h
    rcases hw : writeRange p recorder e.remaining 0 e.remaining.len 0 (e, l) with ⟨_ | r, e1, l1⟩
    · rw [hw] at h; cases (Prod.mk.inj h).1
    rw [hw] at h
    obtain ⟨rfl, rfl⟩ := Prod.mk.inj (Prod.mk.inj h).2
    obtain ⟨g1, g2, g3⟩ := writeRange_keeps (by omega) hw (fun x hx => by cases hx)
    exact ⟨by omega, g1, g2, by omega, hP⟩
  · rw [C37_primitive_flush_idle p recorder e l (by omega)] at h
    obtain ⟨rfl, rfl⟩ := Prod.mk.inj (Prod.mk.inj h).2
    exact ⟨Nat.le_refl _, rfl, rfl, by omega, hP⟩

end PrimitiveEnc

namespace BinaryEnc

theorem flush_ahead {p : Profile} {e e0 : Encoder} {l l' : List (Nat × Bytes)}
    (h : flush p recorder (e, l) = (.ok (), (e0, l'))) :
    e.numRows ≤ e0.numRows ∧ Ahead (e0.numRows - e.numRows) e e0 := by
  by_cases hl : e.remaining.len > 0
  · rcases hc : wholeChunk e.remaining with x | c
    · rw [flush, Run.bind_ok (Run.get_apply _)] at h
      dsimp only at h
      rw [if_pos hl, writeRemaining] at h
      simp only [Run.bind_apply, Run.get_apply, hc, Run.lift_error] at h
      cases (Prod.mk.inj h).1
    rw [flush_apply p recorder e l hl hc] at h
    rcases hw : writeBlock p recorder e.remaining c 0 (e, l) with ⟨_ | r, e1, l1⟩
    · rw [hw] at h; cases (Prod.mk.inj h).1
    rw [hw] at h
    obtain ⟨rfl, rfl⟩ := Prod.mk.inj (Prod.mk.inj h).2
    obtain ⟨g1, g2, g3⟩ := writeBlock_keeps (wholeChunk_lenOk hc) hw (fun x hx => by cases hx)
    exact ⟨by omega, g1, g2, by omega⟩
  · rw [C37_binary_flush_idle p recorder e l (by omega)] at h
    obtain ⟨rfl, rfl⟩ := Prod.mk.inj (Prod.mk.inj h).2
    exact ⟨Nat.le_refl _, rfl, rfl, by omega⟩

end BinaryEnc

section
open PrimitiveEnc
variable {α : Type} [Element α]

/-- C71, primitive encoder, exactly: encoding any buffers after a `flush` writes, block for block, what
encoding them without that `flush` would have written, the rows it wrote among them, with the row ids moved
on by their number. -/
theorem C71_primitive_after_flush_exact (p : Profile) (e e0 e2 : Encoder α) (hP : SizeOk e)
    (bufs : List (PrimitiveBuffer α)) (l l' blocks : List (Nat × Bytes)) (r : Except Fault Unit)
    (hf : flush p recorder (e, l) = (.ok (), (e0, l')))
    (h : encodeColumn p recorder bufs (e, []) = (r, (e2, blocks)))
    (hlt : e2.numRows + (e0.numRows - e.numRows) < 2 ^ 32) :
    ∃ e3, encodeColumn p recorder bufs (e0, l') = (r, (e3, l' ++ shiftIds (e0.numRows - e.numRows) blocks)) := by
  obtain ⟨e3, h3⟩ := shift_ok (encodeColumn_shift p bufs (flush_ahead hP hf).2) h hlt
  exact ⟨e3, h3 l'⟩

end

/-- C71, binary encoder, exactly. -/
theorem C71_binary_after_flush_exact (p : Profile) (e e0 e2 : BinaryEnc.Encoder)
    (bufs : List BinaryBuffer) (l l' blocks : List (Nat × Bytes)) (r : Except Fault Unit)
    (hf : BinaryEnc.flush p recorder (e, l) = (.ok (), (e0, l')))
    (h : BinaryEnc.encodeColumn p recorder bufs (e, []) = (r, (e2, blocks)))
    (hlt : e2.numRows + (e0.numRows - e.numRows) < 2 ^ 32) :
    ∃ e3, BinaryEnc.encodeColumn p recorder bufs (e0, l') =
      (r, (e3, l' ++ shiftIds (e0.numRows - e.numRows) blocks)) := by
  obtain ⟨e3, h3⟩ := shift_ok (BinaryEnc.encodeColumn_shift p bufs (BinaryEnc.flush_ahead hf).2) h hlt
  exact ⟨e3, h3 l'⟩

/-! ## Flushing again and again -/

namespace Reflush

/-- One more call after calls that moved the count of rows by `d`. -/
theorem once {E : Type} {rows : E → Nat} {A : Nat → E → E → Prop} {m : Run (E × List (Nat × Bytes)) Unit} {e e0 x : E}
    {id n d : Nat} {data : Bytes} (hrows : ∀ d x y, A d x y → rows y = rows x + d)
    (htrans : ∀ a b x y z, A a x y → A b y z → A (a + b) x z)
    (hm : ∀ l, m (e, l) = (.ok (), (e0, l ++ [(id, data)]))) (h0 : A n e e0) (hid : id + 1 = rows e0)
    (hs : ShiftAt rows (A d) d m m e x)
    (hb : ∀ x' l, m (x, []) = (.ok (), (x', l)) → rows x' < 2 ^ 32) :
    ∃ x', (id + d + 1 < 2 ^ 32 → A (n + d) e x') ∧ ∀ l, m (x, l) =
      if id + d + 1 < 2 ^ 32 then (.ok (), (x', l ++ [(id + d, data)])) else (.error (.panic .expect), (x', l)) := by
  obtain ⟨r1, e1, bs1, s1, -, -, s4⟩ := hs
  have h1 := s1 []
  rw [hm []] at h1
  obtain ⟨a1, a2⟩ := Prod.mk.inj h1
  obtain ⟨a2, a3⟩ := Prod.mk.inj a2
  simp only [List.nil_append] at a3
  subst a1 a2 a3
  rcases s4 with ⟨e2, k1, k2⟩ | ⟨e2, bs2, k1, ⟨y, k2⟩, k3⟩
  · have hlt := hb _ _ (k1 [])
    have hr := hrows _ _ _ k2
    refine ⟨e2, fun _ => htrans _ _ _ _ _ h0 k2, fun l => ?_⟩
    rw [k1 l, if_pos (by omega)]
    rfl
  · have hbs : bs2 = [] := by
      have := k2.length_le
      simp only [List.length_append, List.length_cons, List.length_nil] at this
      exact List.length_eq_zero_iff.mp (by omega)
    refine ⟨e2, fun _ => by omega, fun l => ?_⟩
    rw [k1 l, if_neg (by omega), hbs]
    simp

theorem times {E : Type} {rows : E → Nat} {A : Nat → E → E → Prop} {m : Run (E × List (Nat × Bytes)) Unit} {e e0 : E}
    {id n : Nat} {data : Bytes} (hn : 1 ≤ n) (hrows : ∀ d x y, A d x y → rows y = rows x + d)
    (htrans : ∀ a b x y z, A a x y → A b y z → A (a + b) x z)
    (hm : ∀ l, m (e, l) = (.ok (), (e0, l ++ [(id, data)]))) (h0 : A n e e0) (hid : id + 1 = rows e0)
    (hs : ∀ d x, A d e x → ShiftAt rows (A d) d m m e x)
    (hb : ∀ d x x' l, A d e x → rows x < 2 ^ 32 → m (x, []) = (.ok (), (x', l)) → rows x' < 2 ^ 32) :
    ∀ j i x, A ((i + 1) * n) e x → rows x < 2 ^ 32 → ∃ x', ∀ l, Run.times m j (x, l) =
      (if id + (i + j) * n + 1 < 2 ^ 32 then .ok () else .error (.panic .expect),
        (x', l ++ (List.range (min j ((2 ^ 32 - 2 - (id + i * n)) / n))).map fun a => (id + (i + a + 1) * n, data))) := by
  intro j
  induction j with
  | zero =>
    intro i x hA hx
    have hr := hrows _ _ _ hA
    have hr0 := hrows _ _ _ h0
    have : (i + 1) * n = i * n + n := Nat.succ_mul _ _
    refine ⟨x, fun l => ?_⟩
    rw [show i + 0 = i from rfl, if_pos (by omega)]
    simp [Run.times, Run.pure_apply]
  | succ j ih =>
    intro i x hA hx
    have hr := hrows _ _ _ hA
    have hr0 := hrows _ _ _ h0
    have e1 : (i + 1) * n = i * n + n := Nat.succ_mul _ _
    have e2 : (i + 1 + 1) * n = i * n + n + n := by rw [Nat.succ_mul, e1]
    have e3 : (i + (j + 1)) * n = i * n + n + j * n := by
      rw [← Nat.add_assoc, Nat.succ_mul, Nat.add_mul]; omega
    obtain ⟨x1, hx1, hm1⟩ := once hrows htrans hm h0 hid (hs _ _ hA) (fun x' l h => hb _ _ _ _ hA hx h)
    by_cases hlt : id + (i + 1) * n + 1 < 2 ^ 32
    · have hA1 : A ((i + 1 + 1) * n) e x1 := by
        have := hx1 hlt
        rwa [show n + (i + 1) * n = (i + 1 + 1) * n by omega] at this
      have hr1 := hrows _ _ _ hA1
      obtain ⟨x', hx'⟩ := ih (i + 1) x1 hA1 (by omega)
      refine ⟨x', fun l => ?_⟩
      rw [Run.times, Run.bind_ok (by rw [hm1 l, if_pos hlt]), hx']
      have hq : (2 ^ 32 - 2 - (id + i * n)) / n = (2 ^ 32 - 2 - (id + (i + 1) * n)) / n + 1 := by
        rw [show 2 ^ 32 - 2 - (id + i * n) = 2 ^ 32 - 2 - (id + (i + 1) * n) + n by omega, Nat.add_div_right _ (by omega)]
      rw [hq, show i + 1 + j = i + (j + 1) by omega, Nat.add_min_add_right, List.range_succ_eq_map]
      simp only [List.map_cons, List.map_map, List.append_assoc, List.cons_append, List.nil_append, Nat.add_zero]
      congr 4
      apply List.map_congr_left
      intro a _
      simp only [Function.comp_apply, Nat.succ_eq_add_one]
      rw [show i + 1 + a + 1 = i + (a + 1) + 1 by omega]
    · refine ⟨x1, fun l => ?_⟩
      rw [Run.times, Run.bind_error (by rw [hm1 l, if_neg hlt]), if_neg (by omega)]
      have hq : (2 ^ 32 - 2 - (id + i * n)) / n = 0 := Nat.div_eq_of_lt (by omega)
      simp [hq]

end Reflush

/-- C37, primitive encoder, exactly: after a `flush` that wrote a block, each further `flush` writes that block again
with the row id moved on by its number of rows, until the count of rows would exceed a `u32`, when it panics. -/
theorem C37_primitive_flush_again_exact {α : Type} [Element α] (p : Profile) (e e0 : PrimitiveEnc.Encoder α)
    (hP : PrimitiveEnc.SizeOk e) (he : e.numRows < 2 ^ 32) (hl : e.remaining.len > 0) (l l' : List (Nat × Bytes))
    (h : PrimitiveEnc.flush p recorder (e, l) = (.ok (), (e0, l'))) :
    ∃ id data n, l' = l ++ [(id, data)] ∧ 1 ≤ n ∧ id + 1 = e.numRows + n ∧ ∀ j, ∃ e1,
      Run.times (PrimitiveEnc.flush p recorder) j (e0, l') =
        (if id + j * n + 1 < 2 ^ 32 then .ok () else .error (.panic .expect),
          (e1, l' ++ (List.range (min j ((2 ^ 32 - 2 - id) / n))).map fun i => (id + (i + 1) * n, data))) := by
  have hf : ∃ bs, (∀ l, PrimitiveEnc.flush p recorder (e, l) = (.ok (), (e0, l ++ bs))) ∧ l' = l ++ bs := by
    obtain ⟨bs1, r1, e1, f1, _⟩ := PrimitiveEnc.flush_follows (α := α) p recorder e
    have h0 := f1 l
    rw [h] at h0
    obtain ⟨a1, a2⟩ := Prod.mk.inj h0
    obtain ⟨a2, a3⟩ := Prod.mk.inj a2
    exact ⟨bs1, fun l => by rw [f1 l, ← a1, ← a2], a3⟩
  obtain ⟨bs, hf, rfl⟩ := hf
  obtain ⟨id, data, n, rfl, h1, h2, -⟩ := C65_primitive_flush_partial p recorder e e0 hP he hl _ (hf [])
  obtain ⟨g1, g2⟩ := PrimitiveEnc.flush_ahead hP h
  obtain ⟨cs, bs1, c1, c2, c3, c4, c5, _⟩ := PrimitiveEnc.flush_counts p e he hP []
  rw [hf []] at c1 c4 c5
  have hid : id + 1 = e0.numRows := by
    simp only [List.nil_append] at c1
    subst c1
    cases cs with
    | nil => cases c2
    | cons c cs =>
      cases cs with
      | cons _ _ => simp [countIds] at c2
      | nil =>
        have := c3 c (by simp)
        simp [countIds] at c2 c4
        omega
  have hn : e0.numRows - e.numRows = n := by omega
  rw [hn] at g2
  refine ⟨id, data, n, rfl, h1, h2, fun j => ?_⟩
  obtain ⟨e1, h3⟩ := Reflush.times (A := PrimitiveEnc.Ahead) (m := PrimitiveEnc.flush p recorder) h1 (fun _ _ _ h => h.rows)
    (fun a b x y z h h' => ⟨h'.remaining.trans h.remaining, h'.size.trans h.size, by rw [h'.rows, h.rows]; omega, h.ok⟩)
    hf g2 hid (fun d x h => PrimitiveEnc.flush_shift p h)
    (fun d x x' l h hx hm => by
      obtain ⟨_, _, _, _, _, _, hlt, _⟩ := PrimitiveEnc.flush_counts p x hx ⟨by rw [h.size]; exact hP.1, by rw [h.size]; exact hP.2⟩ []
      rw [hm] at hlt
      exact hlt)
    j 0 e0 (by simpa using g2) c5
  exact ⟨e1, by simpa using h3 (l ++ [(id, data)])⟩

/-- C37, binary encoder, exactly. -/
theorem C37_binary_flush_again_exact (p : Profile) (e e0 : BinaryEnc.Encoder)
    (he : e.numRows < 2 ^ 32) (hl : e.remaining.len > 0) (l l' : List (Nat × Bytes))
    (h : BinaryEnc.flush p recorder (e, l) = (.ok (), (e0, l'))) :
    ∃ id data n, l' = l ++ [(id, data)] ∧ 1 ≤ n ∧ id + 1 = e.numRows + n ∧ ∀ j, ∃ e1,
      Run.times (BinaryEnc.flush p recorder) j (e0, l') =
        (if id + j * n + 1 < 2 ^ 32 then .ok () else .error (.panic .expect),
          (e1, l' ++ (List.range (min j ((2 ^ 32 - 2 - id) / n))).map fun i => (id + (i + 1) * n, data))) := by
  have hf : ∃ bs, (∀ l, BinaryEnc.flush p recorder (e, l) = (.ok (), (e0, l ++ bs))) ∧ l' = l ++ bs := by
    obtain ⟨bs1, r1, e1, f1, _⟩ := BinaryEnc.flush_follows p recorder e
    have h0 := f1 l
    rw [h] at h0
    obtain ⟨a1, a2⟩ := Prod.mk.inj h0
    obtain ⟨a2, a3⟩ := Prod.mk.inj a2
    exact ⟨bs1, fun l => by rw [f1 l, ← a1, ← a2], a3⟩
  obtain ⟨bs, hf, rfl⟩ := hf
  obtain ⟨id, data, n, rfl, h1, h2, -⟩ := C65_binary_flush_partial p recorder e e0 he hl _ (hf [])
  obtain ⟨g1, g2⟩ := BinaryEnc.flush_ahead h
  obtain ⟨cs, bs1, c1, c2, c3, c4, c5, _⟩ := BinaryEnc.flush_counts p e he []
  rw [hf []] at c1 c4 c5
  have hid : id + 1 = e0.numRows := by
    simp only [List.nil_append] at c1
    subst c1
    cases cs with
    | nil => cases c2
    | cons c cs =>
      cases cs with
      | cons _ _ => simp [countIds] at c2
      | nil =>
        have := c3 c (by simp)
        simp [countIds] at c2 c4
        omega
  have hn : e0.numRows - e.numRows = n := by omega
  rw [hn] at g2
  refine ⟨id, data, n, rfl, h1, h2, fun j => ?_⟩
  obtain ⟨e1, h3⟩ := Reflush.times (A := BinaryEnc.Ahead) (m := BinaryEnc.flush p recorder) h1 (fun _ _ _ h => h.rows)
    (fun a b x y z h h' => ⟨h'.remaining.trans h.remaining, h'.size.trans h.size, by rw [h'.rows, h.rows]; omega⟩)
    hf g2 hid (fun d x h => BinaryEnc.flush_shift p h)
    (fun d x x' l h hx hm => by
      obtain ⟨_, _, _, _, _, _, hlt, _⟩ := BinaryEnc.flush_counts p x hx []
      rw [hm] at hlt
      exact hlt)
    j 0 e0 (by simpa using g2) c5
  exact ⟨e1, by simpa using h3 (l ++ [(id, data)])⟩

/-! Not vacuous: a column of two values, flushed four times in all; and the count of rows near its end, where the
second flush panics. -/
example (p : Profile) : ∃ b : PrimitiveBuffer Int32, (PrimitiveBuffer.new true).pushAll [some 7, none, some 8] = .ok b ∧
    ((do PrimitiveEnc.encodeColumn p recorder [b]; Run.times (PrimitiveEnc.flush p recorder) 3)
      (PrimitiveEnc.Encoder.new 128 true, [])).2.2.map Prod.fst = [2, 5, 8, 11] ∧
    ((Run.times (PrimitiveEnc.flush p recorder) 3) (⟨b, [], Rle.Encoder.new, 128, 4294967290⟩, [])).2.2.map Prod.fst =
      [4294967292] :=
  ⟨_, PrimitiveBuffer.new_pushAll _ _ (.inl rfl), by cases p <;> decide +kernel, by cases p <;> decide +kernel⟩


/-- C71 fails of both encoders: a value, a `flush`, another value and a `flush` write the first value twice
and count three rows. -/
theorem C71_after_flush_violated (p : Profile) :
    (∃ b c : PrimitiveBuffer Int32, (PrimitiveBuffer.new false).pushAll [some 7] = .ok b ∧
      (PrimitiveBuffer.new false).pushAll [some 8] = .ok c ∧
      ((do PrimitiveEnc.encodeColumn p recorder [b]; PrimitiveEnc.encodeColumn p recorder [c])
        (PrimitiveEnc.Encoder.new 128 false, [])).2.2 = [(0, [4, 7, 0, 0, 0]), (2, [8, 7, 0, 0, 0, 8, 0, 0, 0])]) ∧
    (∃ b c, (BinaryBuffer.new false).pushAll [some [9]] = .ok b ∧
      (BinaryBuffer.new false).pushAll [some [5, 6]] = .ok c ∧
      ((do BinaryEnc.encodeColumn p recorder [b]; BinaryEnc.encodeColumn p recorder [c])
        (BinaryEnc.Encoder.new 128 false, [])).2.2 = [(0, [1, 9, 1, 1]), (2, [3, 9, 5, 6, 2, 1])]) := by
  exact ⟨⟨_, _, PrimitiveBuffer.new_pushAll _ _ (.inr (by decide +kernel)),
      PrimitiveBuffer.new_pushAll _ _ (.inr (by decide +kernel)), by cases p <;> decide +kernel⟩,
    ⟨_, _, BinaryBuffer.new_pushAll _ _ (.inr (by decide +kernel)) (by decide +kernel),
      BinaryBuffer.new_pushAll _ _ (.inr (by decide +kernel)) (by decide +kernel), by cases p <;> decide +kernel⟩⟩

end Meerkat
