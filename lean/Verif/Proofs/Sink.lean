import Verif.Spec.Sink

set_option autoImplicit false

/-! # Lemmas on calls and sinks -/

namespace Meerkat
namespace Run
variable {σ α β E S : Type}

theorem bind_apply (m : Run σ α) (f : α → Run σ β) (s : σ) :
    (m >>= f) s = match m s with
      | (.ok a, s') => f a s'
      | (.error e, s') => (.error e, s') := rfl

theorem pure_apply (a : α) (s : σ) : (pure a : Run σ α) s = (.ok a, s) := rfl
@[simp] theorem lift_ok (a : α) (s : σ) {left : σ → σ} : (lift (.ok a) left : Run σ α) s = (.ok a, s) := rfl
@[simp] theorem lift_left (e : Panic) (s : σ) (left : σ → σ) :
    (lift (.error e) left : Run σ α) s = (.error (.panic e), left s) := rfl
@[simp] theorem lift_error (e : Panic) (s : σ) :
    (lift (.error e) : Run σ α) s = (.error (.panic e), s) := rfl
@[simp] theorem get_apply (s : E × S) : (get : Run (E × S) E) s = (.ok s.1, s) := rfl
@[simp] theorem set_apply (e : E) (s : E × S) : (set e : Run (E × S) Unit) s = (.ok (), (e, s.2)) := rfl
@[simp] theorem emit_recorder (rowId : Nat) (data : Bytes) (e : E) (l : List (Nat × Bytes)) :
    emit recorder rowId data (e, l) = (.ok (), (e, l ++ [(rowId, data)])) := rfl

/-- Sequencing when the first part succeeds. -/
theorem bind_ok {m : Run σ α} {f : α → Run σ β} {s s' : σ} {a : α} (h : m s = (.ok a, s')) :
    (m >>= f) s = f a s' := by rw [bind_apply, h]

theorem bind_error {m : Run σ α} {f : α → Run σ β} {s s' : σ} {e : Fault} (h : m s = (.error e, s')) :
    (m >>= f) s = (.error e, s') := by rw [bind_apply, h]

end Run

theorem feed_append {S : Type} (k : Sink S) (s : S) (as bs : List (Nat × Bytes)) :
    feed k s (as ++ bs) = match feed k s as with
      | (.ok (), s') => feed k s' bs
      | (.error f, s') => (.error f, s') := by
  induction as generalizing s with
  | nil => rfl
  | cons a as ih =>
    simp only [List.cons_append, feed]
    split
    · rw [ih]
    · rfl

namespace Follows
variable {α β E S : Type} {k : Sink S}

theorem pure (a : α) : Follows (E := E) k (pure a) (Pure.pure a) := by
  intro e
  exact ⟨[], .ok a, e, fun l => by simp [Run.pure_apply], fun s => rfl⟩

theorem lift (r : Res α) : Follows (E := E) k (Run.lift r) (Run.lift r) := by
  intro e
  cases r with
  | ok a => exact ⟨[], .ok a, e, fun l => by simp, fun s => rfl⟩
  | error x => exact ⟨[], .error (.panic x), e, fun l => by simp, fun s => rfl⟩

theorem leaving (r : Res α) (f : E → E) :
    Follows (E := E) k (Run.lift r fun s => (f s.1, s.2)) (Run.lift r fun s => (f s.1, s.2)) := by
  intro e
  cases r with
  | ok a => exact ⟨[], .ok a, e, fun l => by simp, fun s => rfl⟩
  | error x => exact ⟨[], .error (.panic x), f e, fun l => by simp, fun s => rfl⟩

theorem get : Follows (E := E) k Run.get Run.get := by
  intro e
  exact ⟨[], .ok e, e, fun l => by simp, fun s => rfl⟩

theorem set (e0 : E) : Follows k (Run.set e0) (Run.set e0) := by
  intro e
  exact ⟨[], .ok (), e0, fun l => by simp, fun s => rfl⟩

theorem emit (rowId : Nat) (data : Bytes) :
    Follows (E := E) k (Run.emit k rowId data) (Run.emit recorder rowId data) := by
  intro e
  refine ⟨[(rowId, data)], .ok (), e, fun l => by simp, fun s => ?_⟩
  simp only [feed]
  rcases h : k.write s rowId data with ⟨r, s'⟩
  cases r with
  | ok u => simp [Run.emit, h]
  | error f => exact ⟨e, by simp [Run.emit, h]⟩

theorem bind {m : Run (E × S) α} {mr : Run (E × List (Nat × Bytes)) α}
    {f : α → Run (E × S) β} {fr : α → Run (E × List (Nat × Bytes)) β}
    (h1 : Follows k m mr) (h2 : ∀ a, Follows k (f a) (fr a)) : Follows k (m >>= f) (mr >>= fr) := by
  intro e
  obtain ⟨bs, r, e', hr, hs⟩ := h1 e
  cases r with
  | error x =>
    refine ⟨bs, .error x, e', fun l => by rw [Run.bind_error (hr l)], fun s => ?_⟩
    have := hs s
    split at this
    · exact Run.bind_error this
    · obtain ⟨e'', h⟩ := this; exact ⟨e'', Run.bind_error h⟩
  | ok a =>
    obtain ⟨bs2, r2, e2, hr2, hs2⟩ := h2 a e'
    refine ⟨bs ++ bs2, r2, e2, fun l => by rw [Run.bind_ok (hr l), hr2, List.append_assoc], fun s => ?_⟩
    have h := hs s
    rw [feed_append]
    rcases hf : feed k s bs with ⟨x, s'⟩
    rw [hf] at h
    cases x with
    | ok u =>
      simp only at h ⊢
      have h3 := hs2 s'
      split at h3
      · rw [Run.bind_ok h, h3]
      · obtain ⟨e'', h4⟩ := h3
        exact ⟨e'', by rw [Run.bind_ok h, h4]⟩
    | error fl =>
      simp only at h ⊢
      obtain ⟨e'', h4⟩ := h
      exact ⟨e'', Run.bind_error h4⟩

end Follows
end Meerkat
