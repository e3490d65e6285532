import Verif.Spec.BlockWriter
import Verif.Proofs.Sink

set_option autoImplicit false

/-! # Facts about the file model -/

namespace Meerkat

theorem failedBetween_self (os : Os) (a : Nat) : failedBetween os a a = 0 := by
  rw [failedBetween, List.length_eq_zero_iff, List.filter_eq_nil_iff]
  intro i hi; simp at hi ⊢; intro h; omega

theorem failedBetween_succ (os : Os) {a b : Nat} (h : a ≤ b) :
    failedBetween os a (b + 1) = failedBetween os a b + if os.writes b = .done then 0 else 1 := by
  simp only [failedBetween, List.range_succ, List.filter_append, List.length_append]
  by_cases hd : os.writes b = .done <;> simp [hd, h]

theorem failedBetween_add (os : Os) {a b c : Nat} (h : a ≤ b) (h' : b ≤ c) :
    failedBetween os a c = failedBetween os a b + failedBetween os b c := by
  induction c with
  | zero => obtain rfl : b = 0 := by omega
            simp [failedBetween]
  | succ c ih =>
    by_cases hb : b = c + 1
    · subst hb; rw [failedBetween_self]; rfl
    · rw [failedBetween_succ os (by omega), failedBetween_succ os (by omega : b ≤ c), ih (by omega)]; omega

namespace TokioFile

/-- 1 for an I/O error. -/
def errs {α : Type} (r : Except Fault α) : Nat := match r with | .error .io => 1 | _ => 0

/-- Every failed background write that was waited for is either returned as an error or kept. -/
def Accounts {α : Type} (os : Os) (m : Run TokioFile α) : Prop := ∀ f r f', m f = (r, f') →
  f.numWrites ≤ f'.numWrites ∧
  errs r + f'.lastErr.toNat = f.lastErr.toNat + failedBetween os f.numWrites f'.numWrites

theorem Accounts.pure {α : Type} (os : Os) (a : α) : Accounts os (pure a) := by
  intro f r f' h; rw [Run.pure_apply] at h; cases h
  simp [errs, failedBetween_self]

theorem Accounts.bind {α β : Type} {os : Os} {m : Run TokioFile α} {g : α → Run TokioFile β}
    (hm : Accounts os m) (hg : ∀ a, Accounts os (g a)) : Accounts os (m >>= g) := by
  intro f r f' h
  rcases h1 : m f with ⟨x | a, f1⟩
  · rw [Run.bind_error h1] at h; cases h
    have := hm _ _ _ h1
    exact ⟨this.1, by rw [← this.2]; rcases x with _ | _ <;> rfl⟩
  · rw [Run.bind_ok h1] at h
    have ha := hm _ _ _ h1
    have hb := hg a _ _ _ h
    refine ⟨by omega, ?_⟩
    rw [failedBetween_add os ha.1 hb.1]
    have h2 := ha.2
    have h3 := hb.2
    simp only [errs] at h2 h3 ⊢
    omega

theorem Accounts.complete (os : Os) : Accounts os (complete os) := by
  intro f r f' h
  simp only [TokioFile.complete] at h
  split at h
  · cases h; simp [errs, failedBetween_self]
  · split at h
    · rename_i hw; cases h
      simp [errs, failedBetween_succ os (Nat.le_refl _), failedBetween_self, hw]
    · rename_i hw; cases h
      simp [errs, failedBetween_succ os (Nat.le_refl _), failedBetween_self, hw]; omega

theorem Accounts.takeErr (os : Os) : Accounts os takeErr := by
  intro f r f' h
  simp only [TokioFile.takeErr] at h
  split at h <;> (rename_i hl; cases h; simp [errs, failedBetween_self, hl])

theorem Accounts.write (os : Os) (src : Bytes) : Accounts os (write os src) := by
  refine Accounts.bind (Accounts.takeErr os) fun _ => Accounts.bind (Accounts.complete os) fun _ => ?_
  intro f r f' h; cases h; simp [errs, failedBetween_self]

theorem Accounts.flush (os : Os) : Accounts os (flush os) :=
  Accounts.bind (Accounts.takeErr os) fun _ => Accounts.complete os

/-- What a successful wait does. -/
theorem complete_ok {os : Os} {f f' : TokioFile} (h : complete os f = (.ok (), f')) :
    f'.content = f.content ++ f.pending ∧ f'.inflight = none ∧ f'.lastErr = f.lastErr ∧
    f'.synced = f.synced := by
  simp only [complete] at h
  split at h
  · rename_i hi; cases h; simp [pending, hi]
  · rename_i c hi
    split at h
    · cases h; simp [pending, hi]
    · cases h

theorem takeErr_ok {f f' : TokioFile} (h : takeErr f = (.ok (), f')) : f.lastErr = false ∧ f' = f := by
  simp only [takeErr] at h
  split at h
  · cases h
  · rename_i hl; cases h; exact ⟨by simpa using hl, rfl⟩

theorem flush_ok {os : Os} {f f' : TokioFile} (h : flush os f = (.ok (), f')) :
    f.lastErr = false ∧ f'.content = f.content ++ f.pending ∧ f'.inflight = none ∧ f'.lastErr = false ∧
    f'.synced = f.synced := by
  rcases h1 : takeErr f with ⟨x | a, f1⟩
  · rw [flush, Run.bind_error h1] at h; cases h
  · rw [flush, Run.bind_ok h1] at h
    obtain ⟨hl, rfl⟩ := takeErr_ok h1
    obtain ⟨hc, hi, hl', hs⟩ := complete_ok h
    exact ⟨hl, hc, hi, by rw [hl', hl], hs⟩

theorem write_ok {os : Os} {src : Bytes} {f f' : TokioFile} {n : Nat} (h : write os src f = (.ok n, f')) :
    f.lastErr = false ∧ f'.lastErr = false ∧ n = (src.take os.maxBuf).length ∧
    f'.content = f.content ++ f.pending ∧ f'.inflight = some (src.take os.maxBuf) ∧ f'.synced = f.synced := by
  rcases h1 : takeErr f with ⟨x | a, f1⟩
  · rw [write, Run.bind_error h1] at h; cases h
  · rw [write, Run.bind_ok h1] at h
    obtain ⟨hl, rfl⟩ := takeErr_ok h1
    rcases h2 : complete os f1 with ⟨x | a, f2⟩
    · rw [Run.bind_error h2] at h; cases h
    · rw [Run.bind_ok h2] at h
      obtain ⟨hc, hi, hl', hs⟩ := complete_ok h2
      cases h
      exact ⟨hl, by rw [← hl]; exact hl', rfl, hc, rfl, hs⟩

theorem Accounts.writeAllFuel (os : Os) (hb : 0 < os.maxBuf) (fuel : Nat) (src : Bytes) :
    Accounts os (writeAllFuel os fuel src) := by
  induction fuel generalizing src with
  | zero =>
    simp only [TokioFile.writeAllFuel]
    split
    · exact Accounts.pure os ()
    · intro f r f' h; rw [Run.lift_error] at h; cases h; simp [errs, failedBetween_self]
  | succ fuel ih =>
    simp only [TokioFile.writeAllFuel]
    split
    · exact Accounts.pure os ()
    · rename_i hsrc
      intro f r f' h
      rcases h1 : TokioFile.write os src f with ⟨x | n, f1⟩
      · rw [Run.bind_error h1] at h; cases h
        have := Accounts.write os src _ _ _ h1
        exact ⟨this.1, by rw [← this.2]; rcases x with _ | _ <;> rfl⟩
      · have hn := (write_ok h1).2.2.1
        have hpos : n ≠ 0 := by
          rw [hn, List.length_take]
          have : 0 < src.length := List.length_pos_iff.2 hsrc
          omega
        rw [Run.bind_ok h1, if_neg hpos] at h
        have ha := Accounts.write os src _ _ _ h1
        have hb := ih _ _ _ _ h
        refine ⟨by omega, ?_⟩
        rw [failedBetween_add os ha.1 hb.1]
        have h2 := ha.2
        have h3 := hb.2
        simp only [errs] at h2 h3 ⊢
        omega

theorem Accounts.writeAll (os : Os) (hb : 0 < os.maxBuf) (src : Bytes) : Accounts os (writeAll os src) :=
  Accounts.writeAllFuel os hb _ _

theorem writeAllFuel_ok {os : Os} {fuel : Nat} {src : Bytes} {f f' : TokioFile}
    (h : writeAllFuel os fuel src f = (.ok (), f')) :
    (f.lastErr = false → f'.lastErr = false) ∧ (f'.lastErr = false → f.lastErr = false) ∧
    f'.content ++ f'.pending = f.content ++ f.pending ++ src ∧ f'.synced = f.synced := by
  induction fuel generalizing src f with
  | zero =>
    simp only [writeAllFuel] at h
    split at h
    · rename_i hs; rw [Run.pure_apply] at h; cases h; simp [hs]
    · rw [Run.lift_error] at h; cases h
  | succ fuel ih =>
    simp only [writeAllFuel] at h
    split at h
    · rename_i hs; rw [Run.pure_apply] at h; cases h; simp [hs]
    · rcases h1 : write os src f with ⟨x | n, f1⟩
      · rw [Run.bind_error h1] at h; cases h
      · rw [Run.bind_ok h1] at h
        obtain ⟨hl, hl', hn, hc, hi, hs⟩ := write_ok h1
        split at h
        · cases h
        · obtain ⟨ha, hb, hc', hs'⟩ := ih h
          refine ⟨fun _ => ha hl', fun _ => hl, ?_, by rw [hs', hs]⟩
          rw [hc', hc]
          simp only [pending, hi, Option.getD_some, List.append_assoc, hn, List.length_take]
          congr 2
          rcases Nat.le_total os.maxBuf src.length with hle | hle
          · rw [Nat.min_eq_left hle, List.take_append_drop]
          · rw [Nat.min_eq_right hle, List.take_of_length_le hle]; simp

/-- The loop of `write_all` never runs out of fuel. -/
theorem writeAllFuel_not_diverge {os : Os} {fuel : Nat} {src : Bytes} {f : TokioFile} (hf : src.length ≤ fuel)
    (e : Panic) : (writeAllFuel os fuel src f).1 ≠ .error (.panic e) := by
  induction fuel generalizing src f with
  | zero =>
    obtain rfl : src = [] := List.length_eq_zero_iff.1 (by omega)
    simp [writeAllFuel, Run.pure_apply]
  | succ fuel ih =>
    simp only [writeAllFuel]
    split
    · simp [Run.pure_apply]
    · rcases h1 : write os src f with ⟨x | n, f1⟩
      · rw [Run.bind_error h1]
        intro hx
        obtain rfl : x = .panic e := by simpa using hx
        revert h1
        simp only [write, Run.bind_apply, takeErr]
        intro h1
        split at h1
        · rename_i heq
          split at heq
          · cases heq
          · cases heq
            simp only [complete] at h1
            split at h1
            · rename_i heq2; cases h1
            · rename_i heq2
              cases h1
              split at heq2
              · cases heq2
              · split at heq2 <;> cases heq2
        · rename_i heq; cases h1; split at heq <;> cases heq
      · rw [Run.bind_ok h1]
        split
        · simp [fail]
        · apply ih
          simp only [List.length_drop]; omega

/-- Without faults, `write_all` succeeds. -/
theorem writeAllFuel_succeeds {os : Os} (hb : 0 < os.maxBuf) (hd : ∀ i, os.writes i = .done) {fuel : Nat}
    {src : Bytes} {f : TokioFile} (hf : src.length ≤ fuel) (hl : f.lastErr = false) :
    ∃ f', writeAllFuel os fuel src f = (.ok (), f') := by
  rcases h : writeAllFuel os fuel src f with ⟨x | a, f'⟩
  · exfalso
    have ha := Accounts.writeAllFuel os hb fuel src _ _ _ h
    have hz : failedBetween os f.numWrites f'.numWrites = 0 := by
      simp [failedBetween, hd]
    rcases x with e | _
    · exact writeAllFuel_not_diverge hf e (by rw [h])
    · simp only [errs, hl, hz] at ha
      simp at ha
  · exact ⟨f', rfl⟩

theorem writeAll_ok {os : Os} {src : Bytes} {f f' : TokioFile} (h : writeAll os src f = (.ok (), f')) :
    (f.lastErr = false → f'.lastErr = false) ∧ (f'.lastErr = false → f.lastErr = false) ∧
    f'.content ++ f'.pending = f.content ++ f.pending ++ src ∧ f'.synced = f.synced := writeAllFuel_ok h

/-- What a sync does, whatever it returns. -/
theorem syncAll_facts {os : Os} {f f' : TokioFile} {r : Except Fault Unit} (h : syncAll os f = (r, f')) :
    f.numWrites ≤ f'.numWrites ∧
    f'.lastErr.toNat = f.lastErr.toNat + failedBetween os f.numWrites f'.numWrites ∧
    (f'.lastErr = false → f.lastErr = false ∧ f'.content = f.content ++ f.pending ∧ f'.inflight = none) ∧
    (r = .ok () → f'.synced = f'.content) := by
  simp only [syncAll] at h
  rcases h1 : flush os f with ⟨x | a, f1⟩
  · have ha := Accounts.flush os _ _ _ h1
    have hx : x = .io ∧ f1.lastErr = false := by
      revert h1
      simp only [flush, Run.bind_apply, takeErr, complete]
      by_cases hl : f.lastErr = true
      · simp only [hl, if_true]; intro h1; cases h1; exact ⟨rfl, rfl⟩
      · simp only [hl]; intro h1
        simp only [Bool.false_eq_true, if_false] at h1
        split at h1
        · cases h1
        · split at h1 <;> cases h1
          exact ⟨rfl, by simpa using hl⟩
    obtain ⟨rfl, hl⟩ := hx
    rw [h1] at h
    simp only [errs, hl, Bool.toNat_false] at ha
    dsimp only at h
    split at h <;> cases h <;> refine ⟨ha.1, by simpa using ha.2, by simp, by simp⟩
  · have ha := Accounts.flush os _ _ _ h1
    obtain ⟨hl, hc, hi, hl', hs⟩ := flush_ok h1
    simp only [errs] at ha
    rw [h1] at h
    dsimp only at h
    split at h <;> cases h <;>
      refine ⟨ha.1, by simpa using ha.2, fun _ => ⟨hl, hc, hi⟩, by simp⟩

end TokioFile
end Meerkat
