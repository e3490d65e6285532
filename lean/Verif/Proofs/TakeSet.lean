import Verif.Spec.Bitmap
import Verif.Proofs.Bitmap

set_option autoImplicit false

/-! # The "copy up to the n-th set bit" loops -/

namespace Meerkat

/-- Executable version of `Spec.PrefixWithSet`. -/
def takeSet : Nat → List Bool → Option (List Bool)
  | 0, _ => some []
  | _ + 1, [] => none
  | n + 1, b :: bs => (takeSet (n + 1 - b.toNat) bs).map (b :: ·)

open Spec

theorem takeSet_spec : ∀ (l : List Bool) (n : Nat) (p : List Bool),
    takeSet n l = some p ↔ PrefixWithSet n l p := by
  intro l
  induction l with
  | nil =>
    intro n p
    cases n with
    | zero =>
      simp only [takeSet, Option.some.injEq]
      constructor
      · intro h; subst h; exact ⟨List.nil_prefix, rfl, .inl rfl⟩
      · intro h; have := h.isPrefix; simp at this; exact this.symm
    | succ n =>
      simp only [takeSet, reduceCtorEq, false_iff]
      intro h
      have h1 := h.isPrefix
      have h2 := h.count
      simp at h1; subst h1; simp at h2
  | cons b bs ih =>
    intro n p
    cases n with
    | zero =>
      simp only [takeSet, Option.some.injEq]
      constructor
      · intro h; subst h; exact ⟨List.nil_prefix, rfl, .inl rfl⟩
      · intro h
        rcases h.ends with he | he
        · exact he.symm
        · have h2 := h.count
          rw [List.count_eq_zero] at h2
          exact absurd (List.mem_of_getLast? he) h2
    | succ n =>
      simp only [takeSet, Option.map_eq_some_iff, ih]
      constructor
      · rintro ⟨q, hq, rfl⟩
        refine ⟨List.cons_prefix_cons.mpr ⟨rfl, hq.isPrefix⟩, ?_, ?_⟩
        · rw [List.count_cons, hq.count]
          cases b <;> simp
        · right
          rcases hq.ends with he | he
          · have hc := hq.count
            subst he
            cases b <;> simp at hc ⊢
          · rw [List.getLast?_cons, he]; rfl
      · intro h
        cases p with
        | nil => have := h.count; simp at this
        | cons c q =>
          obtain ⟨rfl, hp⟩ := List.cons_prefix_cons.mp h.isPrefix
          refine ⟨q, ⟨hp, ?_, ?_⟩, rfl⟩
          · have := h.count
            rw [List.count_cons] at this
            cases c <;> simp at this ⊢ <;> omega
          · rcases h.ends with he | he
            · simp at he
            · rw [List.getLast?_cons] at he
              cases hq : q.getLast? with
              | none => left; simpa using hq
              | some x => right; rw [hq] at he; simpa using he

theorem takeSet_none : ∀ (l : List Bool) (n : Nat), takeSet n l = none ↔ l.count true < n := by
  intro l
  induction l with
  | nil => intro n; cases n <;> simp [takeSet]
  | cons b bs ih =>
    intro n
    cases n with
    | zero => simp [takeSet]
    | succ n =>
      simp only [takeSet, Option.map_eq_none_iff, ih, List.count_cons]
      cases b <;> simp

/-- The prefix exists exactly when there are enough set bits. -/
theorem prefixWithSet_exists_iff (n : Nat) (l : List Bool) :
    (∃ p, PrefixWithSet n l p) ↔ n ≤ l.count true := by
  constructor
  · rintro ⟨p, hp⟩
    have h := (takeSet_spec l n p).mpr hp
    rw [← Nat.not_lt, ← takeSet_none, h]
    simp
  · intro h
    cases ht : takeSet n l with
    | none => have := (takeSet_none l n).mp ht; omega
    | some p => exact ⟨p, (takeSet_spec l n p).mp ht⟩

theorem prefixWithSet_unique {n : Nat} {l p q : List Bool} (hp : PrefixWithSet n l p)
    (hq : PrefixWithSet n l q) : p = q := by
  have h1 := (takeSet_spec l n p).mpr hp
  have h2 := (takeSet_spec l n q).mpr hq
  rw [h1] at h2; simpa using h2

namespace Bitmap

theorem reads_of_bitAt {m : Bitmap} {bs : List Bool} (hI : Inv m) (hl : m.len = bs.length)
    (hb : ∀ (i : Nat) (_ : i < bs.length), m.bitAt i = bs[i]) : Reads m bs where
  len := hl
  get i h := by rw [isSet_of_lt hI (by omega), hb i h]
  oob i h := isSet_of_ge (by omega)

/-- A bitmap made by appends only: representation facts. -/
theorem built_spec (bs : List Bool) :
    ∃ m, new.appendAll bs = .ok m ∧ m.len = bs.length ∧ Inv m ∧
      ∀ i, m.bitAt i = bs.getD i false := by
  obtain ⟨m, h, hl, hI, hb⟩ := appendAll_spec new_inv bs
  have hnew : new.len = 0 := rfl
  refine ⟨m, h, by rw [hl, hnew]; omega, hI, fun i => ?_⟩
  rw [hb, hnew]
  simp only [new_bitAt, Bool.or_false, Nat.zero_le, true_and, Nat.zero_add, Nat.sub_zero]
  split
  · rfl
  · rename_i h; rw [List.getD_eq_getElem?_getD, List.getElem?_eq_none (by omega)]; rfl

theorem built_of {bs : List Bool} {m : Bitmap} (h : new.appendAll bs = .ok m) :
    m.len = bs.length ∧ Inv m ∧ ∀ i, m.bitAt i = bs.getD i false := by
  obtain ⟨m', h', r⟩ := built_spec bs
  rw [h] at h'; cases h'; exact r

theorem built_reads {bs : List Bool} {m : Bitmap} (h : new.appendAll bs = .ok m) : Reads m bs := by
  obtain ⟨hl, hI, hb⟩ := built_of h
  exact reads_of_bitAt hI hl fun i hi => by rw [hb]; simp [hi]

/-- `append_from`, for any source whose bits read as `ss`. -/
theorem appendFromLoop_eq {src : Bitmap} {ss : List Bool} (hs : Reads src ss) :
    ∀ (dst : Bitmap) (_ : Inv dst) (pos n : Nat),
    appendFromLoop dst src pos n =
      match takeSet n (ss.drop pos) with
      | none => .error .assertion
      | some p => dst.appendAll p >>= fun d => .ok (d, pos + p.length) := by
  intro dst hd pos n
  generalize hk : src.len - pos = k
  induction k generalizing dst pos n with
  | zero =>
    rw [appendFromLoop]
    have hdrop : ss.drop pos = [] := by
      apply List.drop_eq_nil_of_le; have := hs.len; omega
    cases n with
    | zero => simp [takeSet, appendAll]
    | succ n =>
      rw [if_neg (by omega), dif_neg (by omega), hdrop]; simp [takeSet]
  | succ k ih =>
    rw [appendFromLoop]
    cases n with
    | zero => simp [takeSet, appendAll]
    | succ n =>
      have hlt : pos < ss.length := by have := hs.len; omega
      rw [if_neg (by omega), dif_pos (by omega), hs.get pos hlt]
      simp only [ok_bind]
      obtain ⟨d1, h1, hl1, hI1, _⟩ := append_spec hd ss[pos]
      rw [h1]; simp only [ok_bind]
      rw [ih d1 hI1 (pos + 1) (n + 1 - ss[pos].toNat) (by omega)]
      rw [List.drop_eq_getElem_cons hlt]
      simp only [takeSet]
      cases takeSet (n + 1 - ss[pos].toNat) (ss.drop (pos + 1)) with
      | none => rfl
      | some p =>
        simp only [Option.map_some, appendAll, List.foldlM_cons, h1, ok_bind, List.length_cons]
        congr 1; funext d; congr 2; omega

theorem appendFrom_eq {src : Bitmap} {ss : List Bool} (hs : Reads src ss)
    {dst : Bitmap} (hd : Inv dst) (pos n : Nat) :
    dst.appendFrom src pos n =
      match takeSet n (ss.drop pos) with
      | none => .error .assertion
      | some p => dst.appendAll p >>= fun d => .ok (d, pos + p.length) :=
  appendFromLoop_eq hs dst hd pos n

end Bitmap
end Meerkat
