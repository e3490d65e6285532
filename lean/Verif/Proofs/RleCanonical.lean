import Verif.Proofs.RleBits
import Verif.Spec.RleCanonical

set_option autoImplicit false

/-! # The RLE encoder writes the compressed form of its bytes, and there is only one -/

namespace Meerkat.Rle
open Spec Varint

/-! ## Divisions -/

theorem divided_cons {x : RlePiece} {ps : List RlePiece} :
    Divided (x :: ps) ↔ x.Good ∧ (∀ y ∈ ps.head?, x.Next y) ∧ Divided ps := by
  cases ps with
  | nil => simp [Divided]
  | cons y ps => simp [Divided]

theorem divided_snoc {ps : List RlePiece} {x : RlePiece} :
    Divided (ps ++ [x]) ↔ Divided ps ∧ x.Good ∧ ∀ y ∈ ps.getLast?, y.Next x := by
  induction ps with
  | nil => simp [Divided]
  | cons y ps ih =>
    rw [List.cons_append, divided_cons, ih, divided_cons]
    cases ps with
    | nil => simp [Divided]; exact fun _ => And.comm
    | cons z ps =>
      simp only [List.cons_append, List.head?_cons, List.getLast?_cons_cons]
      constructor
      · rintro ⟨a, b, c, d, e⟩; exact ⟨⟨a, b, c⟩, d, e⟩
      · rintro ⟨⟨a, b, c⟩, d, e⟩; exact ⟨a, b, c, d, e⟩

/-- The piece a frame stands for. -/
def Frame.piece : Frame → RlePiece
  | .run n b => .run n b
  | .bitmap bs => .literal bs

theorem piece_bytes (f : Frame) : f.piece.bytes = f.expand := by cases f <;> rfl

theorem pieces_bytes (fs : List Frame) : (fs.map Frame.piece).flatMap RlePiece.bytes = expandAll fs := by
  induction fs with
  | nil => rfl
  | cons f fs ih => simp only [List.map_cons, List.flatMap_cons, ih, piece_bytes, expandAll]

theorem shortest (v : Nat) (h' : Bytes) (hv : IsVarint h') (he : leb128 h' = leb128 (varintBytes v)) :
    (varintBytes v).length ≤ h'.length := by
  rw [varintBytes_leb] at he
  refine varintBytes_length_le ?_ (he ▸ leb128_lt h')
  cases h' with
  | nil => exact hv.elim
  | cons b a => simp

theorem frame_written (f : Frame) : f.piece.Written f.bytes := by
  cases f with
  | run n b => exact ⟨varintBytes (2 * n), varintBytes_isVarint _, shortest _, varintBytes_leb _, rfl⟩
  | bitmap bs => exact ⟨varintBytes (2 * bs.length + 1), varintBytes_isVarint _, shortest _, varintBytes_leb _, rfl⟩

theorem frames_written (fs : List Frame) : AllWritten (fs.map Frame.piece) (bytesAll fs) := by
  induction fs with
  | nil => rfl
  | cons f fs ih => exact ⟨f.bytes, bytesAll fs, by simp [bytesAll], frame_written f, ih⟩

/-! ## One division -/

theorem leb128_inj {a b : Bytes} (ha : IsVarint a) (hb : IsVarint b) (hl : a.length = b.length) (he : leb128 a = leb128 b) :
    a = b := by
  induction a generalizing b with
  | nil => exact ha.elim
  | cons x a ih =>
    cases b with
    | nil => exact hb.elim
    | cons y b =>
      have hx := x.toNat_lt
      have hy := y.toNat_lt
      simp only [leb128] at he
      cases a with
      | nil =>
        cases b with
        | nil =>
          simp only [IsVarint] at ha hb
          simp only [leb128] at he
          have : x = y := UInt8.toNat_inj.mp (by omega)
          rw [this]
        | cons z b => simp at hl
      | cons w a =>
        cases b with
        | nil => simp at hl
        | cons z b =>
          obtain ⟨h1, h2⟩ := ha
          obtain ⟨h3, h4⟩ := hb
          have h5 := ih h2 h4 (by simpa using hl) (by omega)
          have : x = y := UInt8.toNat_inj.mp (by omega)
          rw [this, h5]

theorem written_unique {x : RlePiece} {a b : Bytes} (ha : x.Written a) (hb : x.Written b) : a = b := by
  obtain ⟨h, h1, h2, h3⟩ := ha
  obtain ⟨g, g1, g2, g3⟩ := hb
  have hgh : h = g := by
    have he : leb128 h = leb128 g := by
      cases x with
      | run n v => exact h3.1.trans g3.1.symm
      | literal bs => exact h3.1.trans g3.1.symm
    exact leb128_inj h1 g1 (Nat.le_antisymm (h2 g g1 he.symm) (g2 h h1 he)) he
  subst hgh
  cases x with
  | run n v => exact h3.2.trans g3.2.symm
  | literal bs => exact h3.2.trans g3.2.symm

theorem allWritten_unique {ps : List RlePiece} : ∀ {a b : Bytes}, AllWritten ps a → AllWritten ps b → a = b := by
  induction ps with
  | nil => intro a b ha hb; exact ha.trans hb.symm
  | cons x ps ih =>
    rintro _ _ ⟨a, b, rfl, h1, h2⟩ ⟨c, d, rfl, h3, h4⟩
    rw [written_unique h1 h3, ih h2 h4]

theorem good_ne {x : RlePiece} (h : x.Good) : x.bytes ≠ [] := by
  cases x with
  | run n b =>
    intro h0
    have := congrArg List.length h0
    simp only [RlePiece.bytes, List.length_replicate, List.length_nil] at this
    simp only [RlePiece.Good] at h
    omega
  | literal bs => exact h.1

theorem flatMap_head {y : RlePiece} {ps : List RlePiece} (h : y.Good) : ((y :: ps).flatMap RlePiece.bytes).head? = y.bytes.head? := by
  have := good_ne h
  rw [List.flatMap_cons, List.head?_append]
  cases hb : y.bytes with
  | nil => exact absurd hb this
  | cons c cs => rfl

/-- What follows a piece starts with another byte. -/
theorem rest_head {x : RlePiece} {ps : List RlePiece} (h : Divided (x :: ps)) :
    (ps.flatMap RlePiece.bytes).head? ≠ x.bytes.getLast? := by
  obtain ⟨hx, hn, hp⟩ := divided_cons.1 h
  cases ps with
  | nil =>
    intro h0
    exact good_ne hx (List.getLast?_eq_none_iff.1 h0.symm)
  | cons y ps =>
    rw [flatMap_head (divided_cons.1 hp).1]
    exact fun h0 => (hn y rfl).2 h0.symm

/-- What follows a literal is nothing or a run. -/
theorem rest_literal {bs : Bytes} {ps : List RlePiece} (h : Divided (.literal bs :: ps)) :
    ps.flatMap RlePiece.bytes = [] ∨ ∃ b t, ps.flatMap RlePiece.bytes = b :: b :: b :: t := by
  obtain ⟨hx, hn, hp⟩ := divided_cons.1 h
  cases ps with
  | nil => exact .inl rfl
  | cons y ps =>
    rcases (hn y rfl).1 with ⟨n, b, h0⟩ | ⟨n, b, h0⟩
    · cases h0
    · subst h0
      have h3 : 3 ≤ n := (divided_cons.1 hp).1
      obtain ⟨m, rfl⟩ := Nat.exists_eq_add_of_le h3
      refine .inr ⟨b, List.replicate m b ++ ps.flatMap RlePiece.bytes, ?_⟩
      rw [List.flatMap_cons, RlePiece.bytes, ← List.replicate_append_replicate]
      rfl

theorem head_run {x : RlePiece} {ps : List RlePiece} {b : UInt8} {t : Bytes} (h : Divided (x :: ps))
    (he : (x :: ps).flatMap RlePiece.bytes = b :: b :: b :: t) : ∃ n, x = .run n b ∧ 3 ≤ n := by
  have hr := rest_head h
  obtain ⟨hx, -, -⟩ := divided_cons.1 h
  rw [List.flatMap_cons] at he
  cases x with
  | run n c =>
    have h3 : 3 ≤ n := hx
    obtain ⟨m, rfl⟩ := Nat.exists_eq_add_of_le h3
    rw [RlePiece.bytes, ← List.replicate_append_replicate] at he
    have : c = b := (List.cons.inj he).1
    subst this
    exact ⟨_, rfl, h3⟩
  | literal bs =>
    exfalso
    simp only [RlePiece.bytes] at he hr
    match bs, hx with
    | [c], _ =>
      obtain ⟨rfl, h2⟩ := List.cons.inj he
      rw [show ps.flatMap RlePiece.bytes = c :: c :: t from h2] at hr
      exact hr rfl
    | [c, d], _ =>
      obtain ⟨rfl, h2⟩ := List.cons.inj he
      obtain ⟨rfl, h3⟩ := List.cons.inj h2
      rw [show ps.flatMap RlePiece.bytes = d :: t from h3] at hr
      exact hr rfl
    | c :: d :: e :: bs, hx =>
      obtain ⟨rfl, h2⟩ := List.cons.inj he
      obtain ⟨rfl, h3⟩ := List.cons.inj h2
      obtain ⟨rfl, h4⟩ := List.cons.inj h3
      exact hx.2 [] _ bs rfl

theorem replicate_split {n m : Nat} {b : UInt8} {r q : Bytes} (he : List.replicate n b ++ r = List.replicate m b ++ q)
    (hr : r.head? ≠ some b) (hq : q.head? ≠ some b) : n = m ∧ r = q := by
  induction n generalizing m with
  | zero =>
    cases m with
    | zero => exact ⟨rfl, by simpa using he⟩
    | succ m =>
      rw [List.replicate_zero, List.nil_append] at he
      rw [he, List.replicate_succ] at hr
      exact absurd rfl hr
  | succ n ih =>
    cases m with
    | zero =>
      rw [List.replicate_zero, List.nil_append] at he
      rw [← he, List.replicate_succ] at hq
      exact absurd rfl hq
    | succ m =>
      rw [List.replicate_succ, List.replicate_succ] at he
      obtain ⟨h1, h2⟩ := ih (List.cons.inj he).2
      exact ⟨by rw [h1], h2⟩

/-- A literal is not cut short. -/
theorem literal_split {as m r q : Bytes} (hg : (RlePiece.literal (as ++ m)).Good) (hr : r = m ++ q)
    (hrun : r = [] ∨ ∃ b t, r = b :: b :: b :: t) (hq : q.head? ≠ (as ++ m).getLast?) : m = [] := by
  rcases hrun with h | ⟨b, t, h⟩
  · rw [h] at hr
    exact (List.append_eq_nil_iff.1 hr.symm).1
  · rw [h] at hr
    match m with
    | [] => rfl
    | [c] =>
      obtain ⟨rfl, h2⟩ := List.cons.inj hr
      rw [show q = b :: b :: t from h2.symm] at hq
      simp at hq
    | [c, d] =>
      obtain ⟨rfl, h2⟩ := List.cons.inj hr
      obtain ⟨rfl, h3⟩ := List.cons.inj h2
      rw [show q = b :: t from h3.symm] at hq
      simp at hq
    | c :: d :: e :: m =>
      obtain ⟨rfl, h2⟩ := List.cons.inj hr
      obtain ⟨rfl, h3⟩ := List.cons.inj h2
      obtain ⟨rfl, h4⟩ := List.cons.inj h3
      exact absurd rfl (hg.2 as _ m)

theorem run_three {n : Nat} {b : UInt8} {ps : List RlePiece} (h : 3 ≤ n) :
    ∃ t, (RlePiece.run n b :: ps).flatMap RlePiece.bytes = b :: b :: b :: t := by
  obtain ⟨m, rfl⟩ := Nat.exists_eq_add_of_le h
  refine ⟨List.replicate m b ++ ps.flatMap RlePiece.bytes, ?_⟩
  rw [List.flatMap_cons, RlePiece.bytes, ← List.replicate_append_replicate]
  rfl

theorem run_head {n : Nat} {b : UInt8} {ps : List RlePiece} (h : Divided (.run n b :: ps)) :
    (ps.flatMap RlePiece.bytes).head? ≠ some b := by
  have h1 := rest_head h
  have h3 : 3 ≤ n := (divided_cons.1 h).1
  obtain ⟨m, rfl⟩ := Nat.exists_eq_add_of_le' h3
  rwa [RlePiece.bytes, show m + 3 = (m + 2) + 1 from rfl, List.replicate_succ', List.getLast?_concat] at h1

theorem divided_unique {ps : List RlePiece} : ∀ {qs : List RlePiece}, Divided ps → Divided qs →
    ps.flatMap RlePiece.bytes = qs.flatMap RlePiece.bytes → ps = qs := by
  induction ps with
  | nil =>
    intro qs _ hq he
    cases qs with
    | nil => rfl
    | cons y qs =>
      rw [List.flatMap_cons] at he
      exact absurd (List.append_eq_nil_iff.1 he.symm).1 (good_ne (divided_cons.1 hq).1)
  | cons x ps ih =>
    intro qs hp hq he
    cases qs with
    | nil =>
      rw [List.flatMap_cons] at he
      exact absurd (List.append_eq_nil_iff.1 he).1 (good_ne (divided_cons.1 hp).1)
    | cons y qs =>
      have key : x = y ∧ ps.flatMap RlePiece.bytes = qs.flatMap RlePiece.bytes := by
        cases x with
        | run n b =>
          obtain ⟨t, ht⟩ := run_three (ps := ps) (b := b) (n := n) (divided_cons.1 hp).1
          obtain ⟨m, rfl, _⟩ := head_run hq (he.symm.trans ht)
          rw [List.flatMap_cons, List.flatMap_cons] at he
          obtain ⟨rfl, h2⟩ := replicate_split he (run_head hp) (run_head hq)
          exact ⟨rfl, h2⟩
        | literal as =>
          cases y with
          | run m b =>
            obtain ⟨t, ht⟩ := run_three (ps := qs) (b := b) (n := m) (divided_cons.1 hq).1
            obtain ⟨_, h0, _⟩ := head_run hp (he.trans ht)
            cases h0
          | literal cs =>
            have h1 := rest_literal hp
            have h2 := rest_literal hq
            have h3 := rest_head hp
            have h4 := rest_head hq
            rw [List.flatMap_cons, List.flatMap_cons] at he
            simp only [RlePiece.bytes] at he h3 h4
            rcases List.append_eq_append_iff.1 he with ⟨m, rfl, h5⟩ | ⟨m, rfl, h5⟩
            · have := literal_split (divided_cons.1 hq).1 h5 h1 h4
              subst this
              exact ⟨by rw [List.append_nil], by rw [h5, List.nil_append]⟩
            · have := literal_split (divided_cons.1 hp).1 h5 h2 h3
              subst this
              exact ⟨by rw [List.append_nil], by rw [h5, List.nil_append]⟩
      rw [key.1, ih (divided_cons.1 hp).2.2 (divided_cons.1 hq).2.2 key.2]

/-- Bytes have one compressed form at most. -/
theorem compressed_unique {bytes a b : Bytes} (ha : Compressed bytes a) (hb : Compressed bytes b) : a = b := by
  obtain ⟨ps, h1, h2, h3⟩ := ha
  obtain ⟨qs, g1, g2, g3⟩ := hb
  have := divided_unique h1 g1 (h2.trans g2.symm)
  subst this
  exact allWritten_unique h3 g3

/-! ## The encoder -/

namespace Encoder

/-- What is pending, by state. -/
def Waits (e : Encoder) (fs ws : List Frame) : Prop :=
  match e.state with
  | .init => fs = [] ∧ ws = [] ∧ e.buffer = []
  | .literal => ws = [.bitmap e.buffer] ∧ ∃ pre, e.buffer = pre ++ [e.lastValue] ∧ pre.getLast? ≠ some e.lastValue
  | .startOfRun => ws = [.bitmap e.buffer] ∧ ∃ pre, e.buffer = pre ++ [e.lastValue, e.lastValue] ∧
      pre.getLast? ≠ some e.lastValue ∧ e.runStartPos = pre.length ∧ e.repeatCount = 2
  | .run => ws = [.run e.repeatCount e.lastValue] ∧ e.buffer = []

/-- Invariant: the frames written and the one that is pending are the division of the bytes appended. -/
structure Neat (e : Encoder) (bs : Bytes) (fs ws : List Frame) : Prop where
  enc : e.encodedValues = bytesAll fs
  all : bs = expandAll (fs ++ ws)
  waits : e.Waits fs ws
  divided : Divided ((fs ++ ws).map Frame.piece)

theorem Neat.congr {e e' : Encoder} {bs : Bytes} {fs ws : List Frame} (h : e.Neat bs fs ws)
    (h1 : e'.encodedValues = e.encodedValues) (h2 : e'.buffer = e.buffer)
    (h3 : e'.repeatCount = e.repeatCount) (h4 : e'.lastValue = e.lastValue)
    (h5 : e'.runStartPos = e.runStartPos) (h6 : e'.state = e.state) : e'.Neat bs fs ws := by
  obtain ⟨a, b, c, d⟩ := h
  refine ⟨by rw [h1, a], b, ?_, d⟩
  simp only [Waits, h2, h3, h4, h5, h6] at c ⊢
  exact c

theorem good_one (c : Byte) : (RlePiece.literal [c]).Good := by
  refine ⟨by simp, fun pre b post h => ?_⟩
  have := congrArg List.length h
  simp only [List.length_append, List.length_cons, List.length_nil] at this
  omega

theorem three_snoc {bs pre post : Bytes} {b c : Byte} (h : bs ++ [c] = pre ++ b :: b :: b :: post)
    (hno : ∀ pre b post, bs ≠ pre ++ b :: b :: b :: post) : bs = pre ++ [b, b] ∧ c = b := by
  rcases List.eq_nil_or_concat post with rfl | ⟨post', d, rfl⟩
  · rw [show pre ++ [b, b, b] = (pre ++ [b, b]) ++ [b] by simp] at h
    obtain ⟨h1, h2⟩ := List.append_inj' h rfl
    exact ⟨h1, (List.cons.inj h2).1⟩
  · rw [show pre ++ b :: b :: b :: (post'.concat d) = (pre ++ b :: b :: b :: post') ++ [d] by simp] at h
    exact absurd (List.append_inj' h rfl).1 (hno _ _ _)

/-- The last piece may get one more byte. -/
theorem grow {fs : List Frame} {bs : Bytes} {c : Byte} (h : Divided ((fs ++ [Frame.bitmap bs]).map Frame.piece))
    (hg : ∀ pre, bs ≠ pre ++ [c, c]) : Divided ((fs ++ [Frame.bitmap (bs ++ [c])]).map Frame.piece) := by
  simp only [List.map_append, List.map_cons, List.map_nil, Frame.piece] at h ⊢
  obtain ⟨h1, h2, h3⟩ := divided_snoc.1 h
  refine divided_snoc.2 ⟨h1, ⟨by simp, fun pre b post he => ?_⟩, fun y hy => ?_⟩
  · obtain ⟨e1, rfl⟩ := three_snoc he h2.2
    exact hg _ e1
  · obtain ⟨g1, g2⟩ := h3 y hy
    refine ⟨?_, ?_⟩
    · rcases g1 with g1 | ⟨_, _, g1⟩
      · exact .inl g1
      · cases g1
    · have hne := h2.1
      simp only [RlePiece.bytes] at g2 ⊢
      cases bs with
      | nil => exact absurd rfl hne
      | cons d bs => exact g2

theorem append_neat (p : Profile) (e : Encoder) (bs : Bytes) (fs ws : List Frame) (cur : Byte)
    (h : e.Neat bs fs ws) (hlen : bs.length < 2 ^ 62) :
    ∃ e' fs' ws', e.append p cur = .ok e' ∧ e'.Neat (bs ++ [cur]) fs' ws' ∧ e'.byte = e.byte ∧ e'.bitPos = e.bitPos := by
  obtain ⟨henc, hall, hp, hdiv⟩ := h
  have hall2 : bs = expandAll fs ++ expandAll ws := by rw [hall, expandAll_append]
  have hple : (expandAll ws).length ≤ bs.length := by rw [hall2]; simp
  cases hst : e.state with
  | init =>
    simp only [Waits, hst] at hp
    obtain ⟨rfl, rfl, hb⟩ := hp
    refine ⟨{ e with state := .literal, buffer := e.buffer ++ [cur], lastValue := cur }, [], [.bitmap [cur]],
      by simp [append, appendMatch, hst], ⟨henc, by simp [hall, Frame.expand], ?_, good_one cur⟩, rfl, rfl⟩
    simp [Waits, hb]
  | literal =>
    simp only [Waits, hst] at hp
    obtain ⟨rfl, pre, hb, hlast⟩ := hp
    have hno : ∀ pre', e.buffer ≠ pre' ++ [e.lastValue, e.lastValue] := by
      intro pre' h0
      rw [hb, show pre' ++ [e.lastValue, e.lastValue] = (pre' ++ [e.lastValue]) ++ [e.lastValue] by simp] at h0
      rw [(List.append_inj' h0 rfl).1] at hlast
      simp at hlast
    by_cases hc : e.lastValue = cur
    · have hlen1 : e.buffer.length - 1 = pre.length := by simp [hb]
      refine ⟨{ e with repeatCount := 2, runStartPos := pre.length, state := .startOfRun,
                       buffer := e.buffer ++ [cur], lastValue := cur },
        fs, [.bitmap (e.buffer ++ [cur])], ?_, ⟨henc, ?_, ?_, ?_⟩, rfl, rfl⟩
      · simp only [append, appendMatch, hst, if_pos hc]
        rw [Profile.sub_ok _ (by simp [hb])]
        simp [hlen1]
      · rw [hall2]; simp [Frame.expand]
      · simp only [Waits]
        exact ⟨by trivial, pre, by simp [hb, hc], by rw [← hc]; exact hlast, by trivial, by trivial⟩
      · exact grow hdiv (by intro pre'; rw [← hc]; exact hno pre')
    · refine ⟨{ e with buffer := e.buffer ++ [cur], lastValue := cur }, fs, [.bitmap (e.buffer ++ [cur])],
        by simp [append, appendMatch, hst, hc], ⟨henc, ?_, ?_, ?_⟩, rfl, rfl⟩
      · rw [hall2]; simp [Frame.expand]
      · simp only [Waits, hst]; exact ⟨by trivial, e.buffer, rfl, by rw [hb]; simpa using hc⟩
      · refine grow hdiv (fun pre' h0 => hc ?_)
        rw [hb, show pre' ++ [cur, cur] = (pre' ++ [cur]) ++ [cur] by simp] at h0
        exact (List.cons.inj (List.append_inj' h0 rfl).2).1
  | startOfRun =>
    simp only [Waits, hst] at hp
    obtain ⟨rfl, pre, hb, hlast, hrs, hrc⟩ := hp
    by_cases hc : e.lastValue = cur
    · have h3 : e.repeatCount + 1 = MIN_RUN_LEN := by simp [hrc, MIN_RUN_LEN]
      have hall' : bs = expandAll fs ++ pre ++ [cur, cur] := by
        rw [hall2, expandAll_one, Frame.expand, hb, hc]; simp
      simp only [List.map_append, List.map_cons, List.map_nil, Frame.piece] at hdiv
      obtain ⟨d1, d2, d3⟩ := divided_snoc.1 hdiv
      have hrunGood : (RlePiece.run 3 cur).Good := Nat.le_refl 3
      by_cases hz : pre = []
      · subst hz
        refine ⟨{ e with repeatCount := 3, buffer := [], state := .run, lastValue := cur }, fs,
          [.run 3 cur], ?_, ⟨henc, ?_, ?_, ?_⟩, rfl, rfl⟩
        · simp [append, appendMatch, hst, hc, hrc, MIN_RUN_LEN, hrs]
        · rw [hall']; simp [Frame.expand]
        · simp [Waits]
        · simp only [List.map_append, List.map_cons, List.map_nil, Frame.piece]
          refine divided_snoc.2 ⟨d1, hrunGood, fun y hy => ⟨.inr ⟨3, cur, rfl⟩, ?_⟩⟩
          have := (d3 y hy).2
          rw [hb, hc] at this
          exact this
      · have hpos : e.runStartPos > 0 := by
          rw [hrs]; exact List.length_pos_iff.mpr hz
        have hprelen : pre.length < 2 ^ 62 := by
          have : pre.length ≤ bs.length := by rw [hall']; simp; omega
          omega
        have hem := emitLit_ok { e with buffer := e.buffer ++ [cur], repeatCount := e.repeatCount + 1 }
          pre ([e.lastValue, e.lastValue] ++ [cur]) (by simp [hb]) (by simp) hprelen
        refine ⟨{ e with repeatCount := 3, buffer := [], state := .run, lastValue := cur,
                         encodedValues := e.encodedValues ++ (Frame.bitmap pre).bytes },
          fs ++ [.bitmap pre], [.run 3 cur], ?_, ⟨?_, ?_, ?_, ?_⟩, rfl, rfl⟩
        · simp only [append, appendMatch, hst, hc, ne_eq, not_true_eq_false, if_false, if_pos h3,
            if_pos hpos]
          rw [hst, hrs, hc] at hem
          rw [hrs, hem]
          simp [hrc]
        · simp [henc]
        · rw [hall']; simp [expandAll, Frame.expand]
        · simp [Waits]
        · simp only [List.map_append, List.map_cons, List.map_nil, Frame.piece]
          refine divided_snoc.2 ⟨divided_snoc.2 ⟨d1, ⟨hz, fun a b c h0 => ?_⟩, fun y hy => ?_⟩, hrunGood, fun y hy => ?_⟩
          · refine d2.2 a b (c ++ [e.lastValue, e.lastValue]) ?_
            rw [hb, h0]; simp
          · obtain ⟨g1, g2⟩ := d3 y hy
            refine ⟨?_, ?_⟩
            · rcases g1 with g1 | ⟨_, _, g1⟩
              · exact .inl g1
              · cases g1
            · rw [hb] at g2
              cases pre with
              | nil => exact absurd rfl hz
              | cons x pre => exact g2
          · rw [List.getLast?_concat, Option.mem_some_iff] at hy
            subst hy
            refine ⟨.inr ⟨3, cur, rfl⟩, ?_⟩
            rw [← hc]
            exact hlast
    · refine ⟨{ e with repeatCount := 0, runStartPos := 0, state := .literal,
                       buffer := e.buffer ++ [cur], lastValue := cur }, fs, [.bitmap (e.buffer ++ [cur])],
        by simp [append, appendMatch, hst, hc, transitionToLiteral],
        ⟨henc, ?_, ?_, ?_⟩, rfl, rfl⟩
      · rw [hall2]; simp [Frame.expand]
      · simp only [Waits]; exact ⟨by trivial, e.buffer, rfl, by rw [hb]; simpa using hc⟩
      · refine grow hdiv (fun pre' h0 => hc ?_)
        rw [hb] at h0
        exact (List.cons.inj (List.append_inj' h0 rfl).2).1
  | run =>
    simp only [Waits, hst] at hp
    obtain ⟨rfl, hb⟩ := hp
    have hdiv0 := hdiv
    simp only [List.map_append, List.map_cons, List.map_nil, Frame.piece] at hdiv
    obtain ⟨d1, d2, d3⟩ := divided_snoc.1 hdiv
    have h3 : 3 ≤ e.repeatCount := d2
    by_cases hc : e.lastValue = cur
    · refine ⟨{ e with repeatCount := e.repeatCount + 1, lastValue := cur }, fs,
        [.run (e.repeatCount + 1) cur], by simp [append, appendMatch, hst, hc],
        ⟨henc, ?_, ?_, ?_⟩, rfl, rfl⟩
      · rw [hall2, hc]; simp [Frame.expand, List.replicate_succ']
      · simp [Waits, hst, hb]
      · simp only [List.map_append, List.map_cons, List.map_nil, Frame.piece]
        refine divided_snoc.2 ⟨d1, Nat.le_succ_of_le h3, fun y hy => ⟨.inr ⟨_, cur, rfl⟩, ?_⟩⟩
        have := (d3 y hy).2
        rw [hc] at this
        obtain ⟨m, hm⟩ := Nat.exists_eq_add_of_le' (show 1 ≤ e.repeatCount by omega)
        rw [hm] at this ⊢
        exact this
    · have hrc : e.repeatCount < 2 ^ 63 := by simp [Frame.expand] at hple; omega
      have hem := emitRun_ok e e.repeatCount e.lastValue hrc
      refine ⟨{ e with encodedValues := e.encodedValues ++ (Frame.run e.repeatCount e.lastValue).bytes,
                       repeatCount := 0, runStartPos := 0, state := .literal,
                       buffer := e.buffer ++ [cur], lastValue := cur },
        fs ++ [.run e.repeatCount e.lastValue], [.bitmap [cur]],
        by simp only [append, appendMatch, hst, ne_eq, hc, not_false_eq_true, if_true, hem, ok_bind,
          transitionToLiteral, pure_eq_ok], ⟨?_, ?_, ?_, ?_⟩, rfl, rfl⟩
      · simp [henc]
      · rw [hall2]; simp [expandAll, Frame.expand]
      · simp [Waits, hb]
      · rw [List.map_append]
        refine divided_snoc.2 ⟨hdiv0, good_one cur, fun y hy => ?_⟩
        rw [List.map_append, List.map_cons, List.map_nil, List.getLast?_concat, Option.mem_some_iff] at hy
        subst hy
        refine ⟨.inl ⟨_, _, rfl⟩, ?_⟩
        obtain ⟨m, hm⟩ := Nat.exists_eq_add_of_le' (show 1 ≤ e.repeatCount by omega)
        simp only [Frame.piece, RlePiece.bytes, hm, List.replicate_succ', List.getLast?_concat, List.head?_cons]
        simpa using hc

theorem finish_neat (e : Encoder) (bs : Bytes) (fs ws : List Frame) (h : e.Neat bs fs ws) (hlen : bs.length < 2 ^ 62) :
    ∃ e', e.finish = .ok e' ∧ e'.encodedValues = bytesAll (fs ++ ws) := by
  obtain ⟨henc, hall, hp, hdiv⟩ := h
  have hall2 : bs = expandAll fs ++ expandAll ws := by rw [hall, expandAll_append]
  have hple : (expandAll ws).length ≤ bs.length := by rw [hall2]; simp
  have hlit : ws = [.bitmap e.buffer] → e.buffer ≠ [] →
      ∃ e', e.emitBitmapLiteral e.buffer.length = .ok e' ∧ e'.encodedValues = bytesAll (fs ++ ws) := by
    rintro rfl hne
    refine ⟨_, emitLit_ok e e.buffer [] (by simp) hne ?_, by simp [henc]⟩
    simp [Frame.expand] at hple
    omega
  cases hst : e.state with
  | init =>
    simp only [Waits, hst] at hp
    obtain ⟨rfl, rfl, _⟩ := hp
    exact ⟨e, by simp [finish, hst], henc⟩
  | literal =>
    simp only [Waits, hst] at hp
    obtain ⟨hw, pre, hb, _⟩ := hp
    simpa [finish, hst] using hlit hw (by simp [hb])
  | startOfRun =>
    simp only [Waits, hst] at hp
    obtain ⟨hw, pre, hb, _⟩ := hp
    simpa [finish, hst] using hlit hw (by simp [hb])
  | run =>
    simp only [Waits, hst] at hp
    obtain ⟨rfl, hb⟩ := hp
    have hrc : e.repeatCount < 2 ^ 63 := by simp [Frame.expand] at hple; omega
    exact ⟨_, by simp only [finish, hst]; exact emitRun_ok e _ _ hrc, by simp [henc]⟩

theorem put_neat (p : Profile) (e : Encoder) (bs : Bytes) (fs ws : List Frame) (r : List Bool)
    (b : Bool) (hc : e.Neat bs fs ws) (hp : e.Partial r) (hlen : bs.length < 2 ^ 62) :
    ∃ e' bs' fs' ws' r', e.put p b = .ok e' ∧ e'.Neat bs' fs' ws' ∧ e'.Partial r' ∧
      bytesBits bs' ++ r' = bytesBits bs ++ r ++ [b] := by
  by_cases h8 : r.length + 1 = 8
  · obtain ⟨byte, h1, h2⟩ := put_full p e r hp b h8
    obtain ⟨e', fs', ws', h3, h4, h5, h6⟩ := append_neat p { e with byte := byte, bitPos := 0 } bs fs ws byte
      (hc.congr rfl rfl rfl rfl rfl rfl) hlen
    refine ⟨{ e' with byte := 0 }, bs ++ [byte], fs', ws', [], by rw [h1, h3]; rfl,
      h4.congr rfl rfl rfl rfl rfl rfl, ⟨?_, by simp, ?_⟩, ?_⟩
    · simp [h6]
    · simp
    · simp [h2]
  · obtain ⟨byte, h1, h2⟩ := put_lt p e r hp b (by have := hp.lt; omega)
    refine ⟨_, bs, fs, ws, r ++ [b], h1, hc.congr rfl rfl rfl rfl rfl rfl, ⟨?_, ?_, h2⟩, by simp⟩
    · simp [hp.pos]
    · have := hp.lt; simp; omega

theorem putAll_neat (p : Profile) (bits : List Bool) : ∀ (e : Encoder) (bs : Bytes)
    (fs ws : List Frame) (r : List Bool) (_ : e.Neat bs fs ws) (_ : e.Partial r)
    (_ : 8 * bs.length + r.length + bits.length < 2 ^ 64),
    ∃ e' bs' fs' ws' r', e.putAll p bits = .ok e' ∧ e'.Neat bs' fs' ws' ∧ e'.Partial r' ∧
      bytesBits bs' ++ r' = bytesBits bs ++ r ++ bits := by
  induction bits with
  | nil => intro e bs fs ws r hc hp _; exact ⟨e, bs, fs, ws, r, rfl, hc, hp, by simp⟩
  | cons b bits ih =>
    intro e bs fs ws r hc hp hlen
    simp only [List.length_cons] at hlen
    obtain ⟨e1, bs1, fs1, ws1, r1, h1, h2, h3, h4⟩ := put_neat p e bs fs ws r b hc hp (by omega)
    have hl := congrArg List.length h4
    simp only [List.length_append, bytesBits_length, List.length_cons, List.length_nil] at hl
    have hr := hp.lt
    obtain ⟨e2, bs2, fs2, ws2, r2, g1, g2, g3, g4⟩ := ih e1 bs1 fs1 ws1 r1 h2 h3 (by omega)
    refine ⟨e2, bs2, fs2, ws2, r2, ?_, g2, g3, ?_⟩
    · simp only [putAll, List.foldlM_cons, h1, ok_bind]; exact g1
    · rw [g4, h4]; simp

theorem flush_neat (p : Profile) (e : Encoder) (bs : Bytes) (fs ws : List Frame) (r : List Bool)
    (hc : e.Neat bs fs ws) (hp : e.Partial r) (hlen : bs.length + 1 < 2 ^ 62) :
    ∃ e' fs' pad, e.flush p = .ok e' ∧ e'.encodedValues = bytesAll fs' ∧ Divided (fs'.map Frame.piece) ∧
      bytesBits (expandAll fs') = bytesBits bs ++ r ++ List.replicate pad false ∧ pad < 8 := by
  rw [flush_eq]
  by_cases h0 : e.bitPos > 0
  · rw [if_pos h0]
    obtain ⟨e1, fs1, ws1, h1, h2, _⟩ := append_neat p e bs fs ws e.byte hc (by omega)
    obtain ⟨e2, g1, g2⟩ := finish_neat e1 (bs ++ [e.byte]) fs1 ws1 h2 (by simpa using hlen)
    refine ⟨e2, fs1 ++ ws1, 8 - r.length, by rw [h1]; exact g1, g2, h2.divided, ?_, ?_⟩
    · rw [← h2.all]
      simp [byteBits_of_testBit (Nat.le_of_lt hp.lt) hp.bits]
    · rw [hp.pos] at h0; omega
  · rw [if_neg h0]
    obtain ⟨e2, g1, g2⟩ := finish_neat e bs fs ws hc (by omega)
    refine ⟨e2, fs ++ ws, 0, g1, g2, hc.divided, ?_, by omega⟩
    have : r = [] := by rw [← List.length_eq_zero_iff, ← hp.pos]; omega
    rw [← hc.all, this]; simp

theorem new_neat : new.Neat [] [] [] := ⟨rfl, rfl, ⟨rfl, rfl, rfl⟩, trivial⟩

/-- What a new encoder makes of some bits. -/
theorem new_compressed (p : Profile) (bits : List Bool) (hlen : bits.length < 2 ^ 64) :
    ∃ e e' bytes pad, Encoder.new.putAll p bits = .ok e ∧ e.flush p = .ok e' ∧ Compressed bytes e'.encodedValues ∧
      bytesBits bytes = bits ++ List.replicate pad false ∧ pad < 8 := by
  obtain ⟨e1, bs1, fs1, ws1, r1, h1, h2, h3, h4⟩ :=
    putAll_neat p bits new [] [] [] [] new_neat new_partial (by simpa using hlen)
  have hl := congrArg List.length h4
  simp at hl
  obtain ⟨e2, fs2, pad, g1, g2, g3, g4, g5⟩ := flush_neat p e1 bs1 fs1 ws1 r1 h2 h3 (by omega)
  refine ⟨e1, e2, expandAll fs2, pad, h1, g1, ⟨fs2.map Frame.piece, g3, pieces_bytes fs2, ?_⟩, by rw [g4, h4]; simp, g5⟩
  rw [g2]
  exact frames_written fs2

end Encoder
end Meerkat.Rle
