import Verif.Model.Seeds
import Verif.Spec.Seeds

set_option autoImplicit false

/-! # Seeds: C55 -/

namespace Meerkat

theorem isWhitespace_iff (c : Char) : isWhitespace c = true ↔ Blank c := by
  simp only [isWhitespace, Blank, blankCodes, Bool.or_eq_true, Bool.and_eq_true, decide_eq_true_eq, List.mem_cons,
    List.not_mem_nil, or_false]
  omega

theorem isWhitespace_false_iff (c : Char) : isWhitespace c = false ↔ ¬ Blank c := by
  rw [← isWhitespace_iff]; simp

theorem splitAtChar_ne_nil (sep : Char) (s : List Char) : splitAtChar sep s ≠ [] := by
  cases s with
  | nil => simp [splitAtChar]
  | cons c cs =>
    simp only [splitAtChar]
    split
    · simp
    · split <;> simp

theorem splitAtChar_no_sep (sep : Char) (s : List Char) : ∀ p ∈ splitAtChar sep s, sep ∉ p := by
  induction s with
  | nil => simp [splitAtChar]
  | cons c cs ih =>
    intro p hp
    simp only [splitAtChar] at hp
    split at hp
    · rcases List.mem_cons.1 hp with rfl | hp
      · simp
      · exact ih p hp
    · rename_i hc
      split at hp
      · rename_i he; exact absurd he (splitAtChar_ne_nil _ _)
      · rename_i q qs he
        rw [he] at ih
        rcases List.mem_cons.1 hp with rfl | hp
        · simp only [List.mem_cons, not_or]
          exact ⟨fun h => hc h.symm, ih q (by simp)⟩
        · exact ih p (by simp [hp])

theorem intercalate_cons_cons (sep x y : List Char) (l : List (List Char)) :
    sep.intercalate (x :: y :: l) = x ++ sep ++ sep.intercalate (y :: l) := by
  simp [List.intercalate, List.intersperse]

theorem intercalate_splitAtChar (sep : Char) (s : List Char) : [sep].intercalate (splitAtChar sep s) = s := by
  induction s with
  | nil => simp [splitAtChar, List.intercalate]
  | cons c cs ih =>
    simp only [splitAtChar]
    split
    · rename_i h
      subst h
      rcases hs : splitAtChar c cs with _ | ⟨p, ps⟩
      · exact absurd hs (splitAtChar_ne_nil _ _)
      · rw [intercalate_cons_cons, ← hs, ih]; rfl
    · split
      · rename_i he; exact absurd he (splitAtChar_ne_nil _ _)
      · rename_i p ps he
        rw [he] at ih
        cases ps with
        | nil => simp [List.intercalate] at ih ⊢; exact ih
        | cons q qs =>
          rw [intercalate_cons_cons] at ih ⊢
          rw [List.cons_append, List.cons_append, ih]

theorem mem_takeWhile {p : Char → Bool} {s : List Char} {c : Char} (h : c ∈ s.takeWhile p) : p c = true := by
  induction s with
  | nil => simp at h
  | cons a s ih =>
    simp only [List.takeWhile_cons] at h
    split at h
    · rcases List.mem_cons.1 h with rfl | h
      · assumption
      · exact ih h
    · simp at h

/-- What trimming leaves out are blanks at both ends. -/
theorem trim_spec (s : List Char) : ∃ l r, s = l ++ trim s ++ r ∧ (∀ c ∈ l, isWhitespace c = true) ∧
    ∀ c ∈ r, isWhitespace c = true := by
  refine ⟨s.takeWhile isWhitespace, ((s.dropWhile isWhitespace).reverse.takeWhile isWhitespace).reverse, ?_, ?_, ?_⟩
  · have h := List.takeWhile_append_dropWhile (p := isWhitespace) (l := (s.dropWhile isWhitespace).reverse)
    have h2 : s.dropWhile isWhitespace = trim s ++
        ((s.dropWhile isWhitespace).reverse.takeWhile isWhitespace).reverse := by
      rw [trim, ← List.reverse_append, h, List.reverse_reverse]
    rw [List.append_assoc, ← h2, List.takeWhile_append_dropWhile]
  · exact fun c hc => mem_takeWhile hc
  · exact fun c hc => mem_takeWhile (List.mem_reverse.1 hc)

theorem dropWhile_head {p : Char → Bool} (s : List Char) (c : Char) (h : (s.dropWhile p).head? = some c) :
    p c = false := by
  induction s with
  | nil => simp at h
  | cons a s ih =>
    simp only [List.dropWhile_cons] at h
    split at h
    · exact ih h
    · simp at h; subst h; simp [*]

theorem trim_head {s : List Char} {c : Char} (h : (trim s).head? = some c) : isWhitespace c = false := by
  obtain ⟨_, r, h1, _, h3⟩ := trim_spec s
  have h2 : s.dropWhile isWhitespace = trim s ++
      ((s.dropWhile isWhitespace).reverse.takeWhile isWhitespace).reverse := by
    have h := List.takeWhile_append_dropWhile (p := isWhitespace) (l := (s.dropWhile isWhitespace).reverse)
    rw [trim, ← List.reverse_append, h, List.reverse_reverse]
  apply dropWhile_head s c
  rw [h2, List.head?_append, h]; rfl

theorem trim_last {s : List Char} {c : Char} (h : (trim s).getLast? = some c) : isWhitespace c = false := by
  rw [trim, List.getLast?_reverse] at h
  exact dropWhile_head _ c h

/-- C55, for an option that is given: no entry holds a comma or begins or ends with a blank, and the
option is the entries, with blanks around them, joined by commas. -/
theorem C55_seeds_given_partial (option : List Char) :
    (∀ e ∈ parseSeeds (some option), ',' ∉ e ∧
      (∀ c, e.head? = some c → ¬ Blank c) ∧ (∀ c, e.getLast? = some c → ¬ Blank c)) ∧
    ∃ entries, option = joinSeeds entries ∧ parseSeeds (some option) = entries.map (fun e => e.2.1) ∧
      ∀ e ∈ entries, (∀ c ∈ e.1, Blank c) ∧ ∀ c ∈ e.2.2, Blank c := by
  simp only [parseSeeds, Option.getD_some, ← isWhitespace_iff, Bool.not_eq_true]
  constructor
  · intro e he
    obtain ⟨p, hp, rfl⟩ := List.mem_map.1 he
    refine ⟨?_, fun c => trim_head, fun c => trim_last⟩
    obtain ⟨l, r, h1, _, _⟩ := trim_spec p
    have := splitAtChar_no_sep ',' option p hp
    intro hc
    apply this
    rw [h1]
    simp [hc]
  · have key : ∀ l : List (List Char), ∃ entries : List (List Char × List Char × List Char),
        l = entries.map (fun e => e.1 ++ e.2.1 ++ e.2.2) ∧ l.map trim = entries.map (fun e => e.2.1) ∧
        ∀ e ∈ entries, (∀ c ∈ e.1, isWhitespace c = true) ∧ ∀ c ∈ e.2.2, isWhitespace c = true := by
      intro l
      induction l with
      | nil => exact ⟨[], rfl, rfl, by simp⟩
      | cons p l ih =>
        obtain ⟨entries, h1, h2, h3⟩ := ih
        obtain ⟨a, b, h4, h5, h6⟩ := trim_spec p
        refine ⟨(a, trim p, b) :: entries, ?_, by simp [h2], ?_⟩
        · rw [List.map_cons, ← h1, ← h4]
        · intro e he
          rcases List.mem_cons.1 he with rfl | he
          · exact ⟨h5, h6⟩
          · exact h3 e he
    obtain ⟨entries, h1, h2, h3⟩ := key (splitAtChar ',' option)
    refine ⟨entries, ?_, h2, h3⟩
    rw [joinSeeds, ← h1, intercalate_splitAtChar]

theorem splitAtChar_append (sep : Char) (a s : List Char) (h : sep ∉ a) :
    splitAtChar sep (a ++ sep :: s) = a :: splitAtChar sep s := by
  induction a with
  | nil => simp [splitAtChar]
  | cons c a ih =>
    simp only [List.mem_cons, not_or] at h
    rw [List.cons_append, splitAtChar, if_neg (fun e => h.1 e.symm), ih h.2]

theorem splitAtChar_self (sep : Char) (a : List Char) (h : sep ∉ a) : splitAtChar sep a = [a] := by
  induction a with
  | nil => rfl
  | cons c a ih =>
    simp only [List.mem_cons, not_or] at h
    rw [splitAtChar, if_neg (fun e => h.1 e.symm), ih h.2]

theorem splitAtChar_intercalate (sep : Char) (l : List (List Char)) (hne : l ≠ []) (h : ∀ p ∈ l, sep ∉ p) :
    splitAtChar sep ([sep].intercalate l) = l := by
  induction l with
  | nil => exact absurd rfl hne
  | cons p l ih =>
    cases l with
    | nil => simpa [List.intercalate] using splitAtChar_self sep p (h p (by simp))
    | cons q l =>
      rw [intercalate_cons_cons, List.append_assoc]
      show splitAtChar sep (p ++ sep :: [sep].intercalate (q :: l)) = _
      rw [splitAtChar_append sep p _ (h p (by simp)), ih (by simp) (fun x hx => h x (by simp [hx]))]

theorem dropWhile_blanks {p : Char → Bool} (l s : List Char) (h : ∀ c ∈ l, p c = true)
    (hs : ∀ c, s.head? = some c → p c = false) : (l ++ s).dropWhile p = s := by
  induction l with
  | nil =>
    cases s with
    | nil => rfl
    | cons c s => simp [hs c rfl]
  | cons a l ih =>
    rw [List.cons_append, List.dropWhile_cons, if_pos (h a (by simp))]
    exact ih fun c hc => h c (by simp [hc])

theorem trim_blanks (l m r : List Char) (hl : ∀ c ∈ l, isWhitespace c = true) (hr : ∀ c ∈ r, isWhitespace c = true)
    (h1 : ∀ c, m.head? = some c → isWhitespace c = false) (h2 : ∀ c, m.getLast? = some c → isWhitespace c = false) :
    trim (l ++ m ++ r) = m := by
  cases m with
  | nil =>
    have : (l ++ [] ++ r).dropWhile isWhitespace = [] := by
      have := dropWhile_blanks (l ++ r) [] (fun c hc => (List.mem_append.1 hc).elim (hl c) (hr c)) (by simp)
      simpa using this
    rw [trim, this]; rfl
  | cons a m =>
    have e1 : (l ++ (a :: m) ++ r).dropWhile isWhitespace = a :: m ++ r := by
      rw [List.append_assoc]
      exact dropWhile_blanks l _ hl (by simpa using h1 a rfl)
    rw [trim, e1, List.reverse_append, dropWhile_blanks r.reverse (a :: m).reverse (by simpa using hr)
      (by intro c hc; rw [List.head?_reverse] at hc; exact h2 c hc), List.reverse_reverse]

/-- C55, for an option that is given, says what the list is: however an option is put together from entries without
commas and surrounding blanks, by adding blanks around them and joining with commas, the list is these entries. -/
theorem C55_seeds_determined_partial (entries : List (List Char × List Char × List Char)) (hne : entries ≠ [])
    (h : ∀ e ∈ entries, (∀ c ∈ e.1, Blank c) ∧ (∀ c ∈ e.2.2, Blank c) ∧ ',' ∉ e.2.1 ∧
      (∀ c, e.2.1.head? = some c → ¬ Blank c) ∧ (∀ c, e.2.1.getLast? = some c → ¬ Blank c)) :
    parseSeeds (some (joinSeeds entries)) = entries.map (fun e => e.2.1) := by
  simp only [← isWhitespace_iff, Bool.not_eq_true] at h
  rw [parseSeeds, Option.getD_some, joinSeeds, splitAtChar_intercalate ',' _ (by simpa using hne), List.map_map]
  · refine List.map_congr_left fun e he => ?_
    obtain ⟨h1, h2, _, h4, h5⟩ := h e he
    exact trim_blanks _ _ _ h1 h2 h4 h5
  · intro p hp
    obtain ⟨e, he, rfl⟩ := List.mem_map.1 hp
    obtain ⟨h1, h2, h3, _, _⟩ := h e he
    have hb : isWhitespace ',' = false := by decide
    simp only [List.mem_append, not_or]
    exact ⟨⟨(fun hc => by rw [h1 _ hc] at hb; exact nomatch hb), h3⟩, (fun hc => by rw [h2 _ hc] at hb; exact nomatch hb)⟩

/-- C55, for an absent option, is false of the code: the list has one entry, the empty string. -/
theorem C55_seeds_absent_violated : parseSeeds none = [[]] ∧ parseSeeds none ≠ [] := by decide

/-- Empty entries are kept in the list. -/
example : parseSeeds (some " a.b:1 ,\t,c d ".toList) = ["a.b:1".toList, [], "c d".toList] := by decide +kernel

end Meerkat
