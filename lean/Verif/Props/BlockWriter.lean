import Verif.Proofs.TokioFile

set_option autoImplicit false

/-! # Block writer: C40, C41 -/

namespace Meerkat

open TokioFile

/-- A file system on which nothing fails, with a small write buffer. -/
def Os.reliable : Os := { writes := fun _ => .done, syncs := fun _ => true, creates := true, maxBuf := 2 }

/-- A file system on which the background write `n` fails after one byte. -/
def Os.failsAt (n : Nat) : Os :=
  { writes := fun i => if i = n then .failed 1 else .done, syncs := fun _ => true, creates := true, maxBuf := 2 }

/-- Runs of calls compose. -/
theorem runOps_append (p : Profile) (os : Os) (a b : List WriterOp) (w : Writer) :
    runOps p os (a ++ b) w =
      ((runOps p os a w).1 ++ (runOps p os b (runOps p os a w).2).1, (runOps p os b (runOps p os a w).2).2) := by
  induction a generalizing w with
  | nil => rfl
  | cons op a ih => simp only [List.cons_append, runOps, ih]

theorem runOps_ops (p : Profile) (os : Os) (ops : List WriterOp) (w : Writer) :
    (runOps p os ops w).1.map Prod.fst = ops := by
  induction ops generalizing w with
  | nil => rfl
  | cons op ops ih => simp only [runOps, List.map_cons, ih]

/-- Accounting for one call. -/
theorem op_accounts {p : Profile} {os : Os} (hb : 0 < os.maxBuf) {op : WriterOp} {w w' : Writer}
    {r : Except Fault Unit} (h : op.run p os w = (r, w')) :
    w.file.numWrites ≤ w'.file.numWrites ∧
    reported [(op, r)] + w'.file.lastErr.toNat =
      w.file.lastErr.toNat + failedBetween os w.file.numWrites w'.file.numWrites := by
  have he : ∀ r : Except Fault Unit, (if r = .error .io then 1 else 0) = errs r := by
    intro r; rcases r with (_ | _) | _ <;> simp [errs]
  cases op with
  | write b =>
    simp only [WriterOp.run, Writer.writeBlock] at h
    split at h
    · cases h; simp [reported, failedBetween_self]
    · simp only [Writer.onFile] at h
      cases h
      have := Accounts.writeAll os hb b w.file _ _ rfl
      exact ⟨this.1, by rw [reported, he] <;> first | exact this.2 | (intro h; cases h)⟩
  | flush =>
    simp only [WriterOp.run, Writer.flush, Writer.onFile] at h
    cases h
    have := Accounts.flush os w.file _ _ rfl
    exact ⟨this.1, by rw [reported, he] <;> first | exact this.2 | (intro h; cases h)⟩
  | sync =>
    simp only [WriterOp.run, Writer.sync, Writer.onFile] at h
    cases h
    have := syncAll_facts (os := os) (f := w.file) rfl
    exact ⟨this.1, by simp only [reported]; rw [Nat.zero_add]; exact this.2.1⟩

theorem reported_append (a b : List (WriterOp × Except Fault Unit)) :
    reported (a ++ b) = reported a + reported b := by
  induction a with
  | nil => simp [reported]
  | cons x a ih => rcases x with ⟨_ | _ | _, r⟩ <;> simp only [List.cons_append, reported, ih] <;> omega

theorem ops_account {p : Profile} {os : Os} (hb : 0 < os.maxBuf) (ops : List WriterOp) (w : Writer) :
    w.file.numWrites ≤ (runOps p os ops w).2.file.numWrites ∧
    reported (runOps p os ops w).1 + (runOps p os ops w).2.file.lastErr.toNat =
      w.file.lastErr.toNat + failedBetween os w.file.numWrites (runOps p os ops w).2.file.numWrites := by
  induction ops generalizing w with
  | nil => simp [runOps, reported, failedBetween_self]
  | cons op ops ih =>
    rcases h1 : op.run p os w with ⟨r, w1⟩
    have h2 := op_accounts hb h1
    have h3 := ih w1
    have h4 := reported_append [(op, r)] (runOps p os ops w1).1
    simp only [List.cons_append, List.nil_append] at h4
    simp only [runOps, h1]
    refine ⟨by omega, ?_⟩
    rw [failedBetween_add os h2.1 h3.1, h4]
    omega

/-- What is in the file after accepted calls. -/
theorem ops_content {p : Profile} {os : Os} (ops : List WriterOp) (w : Writer) (data : Bytes)
    (hw : w.file.lastErr = false → w.file.content ++ w.file.pending = data)
    (hok : ∀ x ∈ (runOps p os ops w).1, Accepted x) :
    (runOps p os ops w).2.file.lastErr = false →
      (runOps p os ops w).2.file.content ++ (runOps p os ops w).2.file.pending = data ++ bytesGiven ops := by
  induction ops generalizing w data with
  | nil => simpa [runOps, bytesGiven] using hw
  | cons op ops ih =>
    rcases h1 : op.run p os w with ⟨r, w1⟩
    simp only [runOps, h1] at hok ⊢
    have ha : Accepted (op, r) := hok _ (by simp)
    have hrest : ∀ x ∈ (runOps p os ops w1).1, Accepted x := fun x hx => hok x (by simp [hx])
    cases op with
    | write b =>
      obtain rfl : r = .ok () := ha
      rw [bytesGiven, ← List.append_assoc]
      refine ih w1 _ (fun hl => ?_) hrest
      simp only [WriterOp.run, Writer.writeBlock] at h1
      split at h1
      · cases h1
      · simp only [Writer.onFile] at h1
        rcases h2 : writeAll os b w.file with ⟨r, f⟩
        simp only [h2] at h1
        cases h1
        obtain ⟨h3, h4, h5, _⟩ := writeAll_ok h2
        rw [h5, hw (h4 hl)]
    | flush =>
      obtain rfl : r = .ok () := ha
      refine ih w1 _ (fun hl => ?_) hrest
      simp only [WriterOp.run, Writer.flush, Writer.onFile] at h1
      rcases h2 : TokioFile.flush os w.file with ⟨r, f⟩
      simp only [h2] at h1
      cases h1
      obtain ⟨h3, h4, h5, h6, _⟩ := flush_ok h2
      rw [← hw h3]; simp [h4, pending, h5]
    | sync =>
      refine ih w1 _ (fun hl => ?_) hrest
      simp only [WriterOp.run, Writer.sync, Writer.onFile] at h1
      rcases h2 : TokioFile.syncAll os w.file with ⟨r, f⟩
      simp only [h2] at h1
      cases h1
      obtain ⟨_, _, h3, _⟩ := syncAll_facts h2
      obtain ⟨h4, h5, h6⟩ := h3 hl
      rw [← hw h4]; simp [h5, pending, h6]

/-- Writes move the position by the length of their block. -/
theorem ops_pos {p : Profile} {os : Os} (ops : List WriterOp) (w : Writer)
    (h : w.pos + (bytesGiven ops).length < 2 ^ 64) :
    (runOps p os ops w).2.pos = w.pos + (bytesGiven ops).length := by
  induction ops generalizing w with
  | nil => simp [runOps, bytesGiven]
  | cons op ops ih =>
    rcases h1 : op.run p os w with ⟨r, w1⟩
    simp only [runOps, h1]
    cases op with
    | write b =>
      simp only [bytesGiven, List.length_append] at h ⊢
      have : w1.pos = w.pos + b.length := by
        simp only [WriterOp.run, Writer.writeBlock, p.add_ok (show w.pos + b.length < 2 ^ 64 by omega),
          Writer.onFile] at h1
        cases h1; rfl
      rw [ih _ (by rw [this]; omega), this]; omega
    | flush =>
      have : w1.pos = w.pos := by
        simp only [WriterOp.run, Writer.flush, Writer.onFile] at h1; cases h1; rfl
      simp only [bytesGiven] at h ⊢
      rw [ih _ (by rw [this]; omega), this]
    | sync =>
      have : w1.pos = w.pos := by
        simp only [WriterOp.run, Writer.sync, Writer.onFile] at h1; cases h1; rfl
      simp only [bytesGiven] at h ⊢
      rw [ih _ (by rw [this]; omega), this]

theorem bytesGiven_writes (blocks : List Bytes) : bytesGiven (blocks.map .write) = blocks.flatten := by
  induction blocks with
  | nil => rfl
  | cons b bs ih => simp [bytesGiven, ih]

theorem bytesGiven_append (a b : List WriterOp) : bytesGiven (a ++ b) = bytesGiven a ++ bytesGiven b := by
  induction a with
  | nil => rfl
  | cons x a ih => cases x <;> simp [bytesGiven, ih]

theorem new_file {os : Os} {w : Writer} (h : Writer.new os = .ok w) : w = { file := TokioFile.empty, pos := 0 } := by
  simp only [Writer.new, TokioFile.create] at h
  split at h
  · rename_i heq; split at heq <;> cases heq; cases h; rfl
  · cases h

/-- **C40.** After successful writes to a new file the position is the total length of the blocks, the
file (with the write still in the background, if any) holds their concatenation, and after a successful
flush it holds it outright. -/
theorem C40_position_is_length (p : Profile) (os : Os) (w : Writer) (hw : Writer.new os = .ok w)
    (blocks : List Bytes) (hlen : blocks.flatten.length < 2 ^ 64)
    (hok : ∀ x ∈ (runOps p os (blocks.map .write) w).1, x.2 = .ok ()) :
    let w' := (runOps p os (blocks.map .write) w).2
    w'.pos = blocks.flatten.length ∧
    w'.file.content ++ w'.file.pending = blocks.flatten ∧
    ∀ w'', Writer.flush os w' = (.ok (), w'') →
      w''.file.content = blocks.flatten ∧ w''.file.pending = [] ∧ w''.pos = blocks.flatten.length := by
  intro w'
  have hnew := new_file hw
  have hpos : w'.pos = blocks.flatten.length := by
    have := ops_pos (p := p) (os := os) (blocks.map .write) w (by rw [hnew, bytesGiven_writes]; simpa using hlen)
    rw [bytesGiven_writes, hnew] at this
    simpa [w', hnew] using this
  have hacc : ∀ x ∈ (runOps p os (blocks.map .write) w).1, Accepted x := by
    intro x hx
    have := hok x hx
    rcases x with ⟨_ | _ | _, r⟩ <;> simp_all [Accepted]
  have hcontent := ops_content (p := p) (os := os) (blocks.map .write) w []
    (by rw [hnew]; intro _; rfl) hacc
  have hl : w'.file.lastErr = false := by
    have key : ∀ (bs : List Bytes) (w0 : Writer), w0.file.lastErr = false →
        (∀ x ∈ (runOps p os (bs.map .write) w0).1, x.2 = .ok ()) →
        (runOps p os (bs.map .write) w0).2.file.lastErr = false := by
      intro bs
      induction bs with
      | nil => intro w0 h _; exact h
      | cons b bs ih =>
        intro w0 h0 hr
        rcases h1 : (WriterOp.write b).run p os w0 with ⟨r, w1⟩
        simp only [List.map_cons, runOps, h1] at hr ⊢
        refine ih w1 ?_ (fun x hx => hr x (by simp [hx]))
        obtain rfl : r = .ok () := hr (.write b, r) (by simp)
        simp only [WriterOp.run, Writer.writeBlock] at h1
        split at h1
        · cases h1
        · simp only [Writer.onFile] at h1
          rcases h2 : writeAll os b w0.file with ⟨r, f⟩
          simp only [h2] at h1
          cases h1
          exact (writeAll_ok h2).1 h0
    exact key blocks w (by rw [hnew]; rfl) hok
  refine ⟨hpos, ?_, ?_⟩
  · have := hcontent hl
    rwa [bytesGiven_writes, List.nil_append] at this
  · intro w'' hf
    simp only [Writer.flush, Writer.onFile] at hf
    rcases h2 : TokioFile.flush os w'.file with ⟨r, f⟩
    simp only [h2] at hf
    cases hf
    obtain ⟨h3, h4, h5, h6, _⟩ := flush_ok h2
    have := hcontent hl
    rw [bytesGiven_writes, List.nil_append] at this
    exact ⟨by rw [← this]; exact h4, by simp [pending, h5], hpos⟩

/-- **C40.** Each block occupies the range of the file between the positions before and after its write. -/
theorem C40_block_range (p : Profile) (os : Os) (w : Writer) (hw : Writer.new os = .ok w)
    (before : List Bytes) (block : Bytes) (after : List Bytes)
    (hlen : (before ++ block :: after).flatten.length < 2 ^ 64)
    (hok : ∀ x ∈ (runOps p os ((before ++ block :: after).map .write) w).1, x.2 = .ok ()) :
    let start := (runOps p os (before.map .write) w).2.pos
    let stop := (runOps p os ((before ++ [block]).map .write) w).2.pos
    let w' := (runOps p os ((before ++ block :: after).map .write) w).2
    start ≤ stop ∧ stop ≤ w'.pos ∧
    ((w'.file.content ++ w'.file.pending).drop start).take (stop - start) = block := by
  intro start stop w'
  have hnew := new_file hw
  obtain ⟨hp, hc, _⟩ := C40_position_is_length p os w hw _ hlen hok
  have hs : start = before.flatten.length := by
    have := ops_pos (p := p) (os := os) (before.map .write) w (by
      rw [hnew, bytesGiven_writes]; simp at hlen ⊢; omega)
    rw [bytesGiven_writes, hnew] at this
    simpa [start, hnew] using this
  have he : stop = before.flatten.length + block.length := by
    have := ops_pos (p := p) (os := os) ((before ++ [block]).map .write) w (by
      rw [hnew, bytesGiven_writes]; simp at hlen ⊢; omega)
    rw [bytesGiven_writes, hnew] at this
    simpa [stop, hnew] using this
  have hw' : w'.pos = (before ++ block :: after).flatten.length := hp
  refine ⟨by omega, by rw [he, hw']; simp, ?_⟩
  rw [show w'.file.content ++ w'.file.pending = (before ++ block :: after).flatten from hc, hs, he]
  simp

/-- **C40.** On a file system where nothing fails all writes succeed, in both profiles. -/
theorem C40_writes_succeed (p : Profile) (os : Os) (hb : 0 < os.maxBuf) (hd : ∀ i, os.writes i = .done)
    (w : Writer) (hw : Writer.new os = .ok w) (blocks : List Bytes) (hlen : blocks.flatten.length < 2 ^ 64) :
    ∀ x ∈ (runOps p os (blocks.map .write) w).1, x.2 = .ok () := by
  have key : ∀ (bs : List Bytes) (w0 : Writer), w0.file.lastErr = false → w0.pos + bs.flatten.length < 2 ^ 64 →
      ∀ x ∈ (runOps p os (bs.map .write) w0).1, x.2 = .ok () := by
    intro bs
    induction bs with
    | nil => simp [runOps]
    | cons b bs ih =>
      intro w0 h0 hpos
      simp only [List.flatten_cons, List.length_append] at hpos
      obtain ⟨f', hf⟩ := writeAllFuel_succeeds hb hd (f := w0.file) (src := b) (Nat.le_refl _) h0
      have hf : writeAll os b w0.file = (.ok (), f') := hf
      have h1 : (WriterOp.write b).run p os w0 = (.ok (), { file := f', pos := w0.pos + b.length }) := by
        simp only [WriterOp.run, Writer.writeBlock, p.add_ok (show w0.pos + b.length < 2 ^ 64 by omega),
          Writer.onFile, hf]
      simp only [List.map_cons, runOps, h1]
      intro x hx
      rcases List.mem_cons.1 hx with rfl | hx
      · rfl
      · exact ih _ ((writeAll_ok hf).1 h0) (by dsimp only; omega) x hx
  have hnew := new_file hw
  exact key blocks w (by rw [hnew]; rfl) (by rw [hnew]; simpa using hlen)

/-- Three blocks through a two-byte buffer. -/
example : ∃ w, Writer.new Os.reliable = .ok w ∧
    let r := runOps .debug Os.reliable [.write [1, 2, 3, 4, 5], .write [], .write [6]] w
    r.1.map Prod.snd = [.ok (), .ok (), .ok ()] ∧ r.2.pos = 6 ∧ r.2.file.content = [1, 2, 3, 4, 5] ∧
    r.2.file.pending = [6] := ⟨_, rfl, by decide +kernel⟩

/-- **C41.** Whatever the operating system does, if every write and flush of a list of calls that ends
with a flush succeeded, then no background write failed and the file holds every block. Syncs may be
made anywhere and may fail. -/
theorem C41_accepted_is_written (p : Profile) (os : Os) (hb : 0 < os.maxBuf) (w : Writer)
    (hw : Writer.new os = .ok w) (ops : List WriterOp)
    (hok : ∀ x ∈ (runOps p os (ops ++ [.flush]) w).1, Accepted x) :
    let w' := (runOps p os (ops ++ [.flush]) w).2
    w'.file.content = bytesGiven ops ∧ w'.file.pending = [] ∧
    ∀ i, i < w'.file.numWrites → os.writes i = .done := by
  intro w'
  have hnew := new_file hw
  have hc := ops_content (p := p) (os := os) (ops ++ [.flush]) w [] (by rw [hnew]; intro _; rfl) hok
  have hacct := ops_account (p := p) hb (ops ++ [.flush]) w
  have hrep : reported (runOps p os (ops ++ [.flush]) w).1 = 0 := by
    generalize (runOps p os (ops ++ [.flush]) w).1 = l at hok
    induction l with
    | nil => rfl
    | cons x l ih =>
      have h1 := hok x (by simp)
      have h2 := ih fun y hy => hok y (by simp [hy])
      rcases x with ⟨_ | _ | _, r⟩ <;> simp_all [reported, Accepted]
  have hlast : w'.file.lastErr = false ∧ w'.file.pending = [] := by
    simp only [w', runOps_append] at hok ⊢
    generalize hw1 : (runOps p os ops w).2 = w1 at hok ⊢
    have := hok (.flush, (Writer.flush os w1).1) (by simp [runOps, WriterOp.run])
    have h1 : (Writer.flush os w1).1 = .ok () := this
    simp only [runOps, WriterOp.run]
    simp only [Writer.flush, Writer.onFile] at h1 ⊢
    rcases h2 : TokioFile.flush os w1.file with ⟨r, f⟩
    simp only [h2] at h1 ⊢
    subst h1
    obtain ⟨_, _, h5, h6, _⟩ := flush_ok h2
    exact ⟨h6, by simp [pending, h5]⟩
  refine ⟨?_, hlast.2, ?_⟩
  · have := hc hlast.1
    rw [show (runOps p os (ops ++ [.flush]) w).2.file.pending = [] from hlast.2] at this
    simpa [w', bytesGiven_append, bytesGiven] using this
  · have hz : failedBetween os w.file.numWrites w'.file.numWrites = 0 := by
      have := hacct.2
      rw [hrep, show (runOps p os (ops ++ [.flush]) w).2.file.lastErr = false from hlast.1] at this
      have : 0 = w.file.lastErr.toNat + failedBetween os w.file.numWrites w'.file.numWrites := this
      omega
    intro i hi
    rw [failedBetween, List.length_eq_zero_iff, List.filter_eq_nil_iff] at hz
    have := hz i (List.mem_range.2 hi)
    have h0 : w.file.numWrites = 0 := by rw [hnew]; rfl
    simpa [h0] using this

/-- **C41.** Every failed background write is reported exactly once: by the write or flush that waits
for it, or, if a sync waited for it, by the next write or flush that gets to the file (`lastErr` is the
error a sync is still keeping). This holds between any two moments of the life of a writer. -/
theorem C41_each_failure_reported_once (p : Profile) (os : Os) (hb : 0 < os.maxBuf) (w : Writer)
    (ops : List WriterOp) :
    let w' := (runOps p os ops w).2
    reported (runOps p os ops w).1 + w'.file.lastErr.toNat =
      w.file.lastErr.toNat + failedBetween os w.file.numWrites w'.file.numWrites :=
  (ops_account hb ops w).2

/-- **C41.** From any state of a writer: if a background write fails while `ops` and a final flush
are run, or had failed and was kept by a sync, then a write or flush among them reports an error. -/
theorem C41_failure_is_reported (p : Profile) (os : Os) (hb : 0 < os.maxBuf) (w : Writer) (ops : List WriterOp)
    (hfail : w.file.lastErr = true ∨ ∃ i, w.file.numWrites ≤ i ∧
      i < (runOps p os (ops ++ [.flush]) w).2.file.numWrites ∧ os.writes i ≠ .done) :
    ∃ x ∈ (runOps p os (ops ++ [.flush]) w).1, x.1 ≠ .sync ∧ x.2 = .error .io := by
  have hacct := (ops_account (p := p) hb (ops ++ [.flush]) w).2
  have hpos : 0 < w.file.lastErr.toNat +
      failedBetween os w.file.numWrites (runOps p os (ops ++ [.flush]) w).2.file.numWrites := by
    rcases hfail with h | ⟨i, h1, h2, h3⟩
    · rw [h]; simp; omega
    · have : 0 < failedBetween os w.file.numWrites (runOps p os (ops ++ [.flush]) w).2.file.numWrites := by
        rw [failedBetween]
        refine List.length_pos_iff_exists_mem.2 ⟨i, ?_⟩
        simp [h1, h2, h3]
      omega
  have hrep : 0 < reported (runOps p os (ops ++ [.flush]) w).1 ∨
      reported (runOps p os (ops ++ [.flush]) w).1 = 0 := by omega
  rcases hrep with hrep | hrep
  · revert hrep
    generalize (runOps p os (ops ++ [.flush]) w).1 = l
    induction l with
    | nil => simp [reported]
    | cons x l ih =>
      intro h
      by_cases hx : x.1 ≠ .sync ∧ x.2 = .error .io
      · exact ⟨x, by simp, hx⟩
      · have : 0 < reported l := by
          rcases x with ⟨_ | _ | _, r⟩ <;> simp_all [reported]
        obtain ⟨y, hy, hy'⟩ := ih this
        exact ⟨y, by simp [hy], hy'⟩
  · exfalso
    rw [hrep] at hacct
    have hlast : (runOps p os (ops ++ [.flush]) w).2.file.lastErr = false := by
      simp only [runOps_append, runOps, WriterOp.run, Writer.flush, Writer.onFile]
      generalize (runOps p os ops w).2 = w1
      simp only [TokioFile.flush, Run.bind_apply, takeErr, complete]
      by_cases hl : w1.file.lastErr = true
      · simp [hl]
      · simp only [hl]
        simp only [Bool.false_eq_true, if_false]
        split
        · simpa using hl
        · split <;> simpa using hl
    rw [hlast] at hacct
    simp at hacct hpos
    omega

/-- A failure in the background is reported by the next write; one that a sync waited for, by the flush. -/
example : ∃ w, Writer.new (Os.failsAt 1) = .ok w ∧
    (runOps .debug (Os.failsAt 1) [.write [1, 2], .write [3, 4], .write [5], .flush] w).1.map Prod.snd =
      [.ok (), .ok (), .error .io, .ok ()] ∧
    (runOps .debug (Os.failsAt 1) [.write [1, 2], .write [3, 4], .sync, .flush] w).1.map Prod.snd =
      [.ok (), .ok (), .ok (), .error .io] := ⟨_, rfl, by decide +kernel⟩

end Meerkat
