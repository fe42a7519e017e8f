import Verif.Model.Tools
import Mathlib.Data.List.Basic

/-!
# Reading back what `dump_store` prints
-/

namespace Carmen.Tools

/-! ## A reader of the JSON printed -/

def expect (pat t : Text) : Option Text :=
  if pat.isPrefixOf t then some (t.drop pat.length) else none

theorem expect_append (pat t : Text) : expect pat (pat ++ t) = some t := by
  unfold expect
  rw [if_pos (List.isPrefixOf_iff_prefix.2 (List.prefix_append _ _)), List.drop_left]

def readNum (t : Text) : Option (ℕ × Text) :=
  match t.takeWhile Char.isDigit with
  | [] => none
  | d :: ds => some (Nat.ofDigitChars 10 (d :: ds) 0, t.dropWhile Char.isDigit)

theorem numText_digits (n : ℕ) : ∀ c ∈ numText n, c.isDigit = true := fun _ h =>
  Nat.isDigit_of_mem_toDigits (by decide) (by decide) h

theorem numText_ne_nil (n : ℕ) : numText n ≠ [] := Nat.toDigits_ne_nil

theorem readNum_numText (n : ℕ) {t : Text} (h : ∀ c, t.head? = some c → c.isDigit = false) :
    readNum (numText n ++ t) = some (n, t) := by
  have h1 : (numText n ++ t).takeWhile Char.isDigit = numText n := by
    rw [List.takeWhile_append_of_pos (numText_digits n)]
    cases t with
    | nil => simp
    | cons c t => simp [h c rfl]
  have h2 : (numText n ++ t).dropWhile Char.isDigit = t := by
    rw [List.dropWhile_append_of_pos (numText_digits n)]
    cases t with
    | nil => simp
    | cons c t => simp [h c rfl]
  unfold readNum
  rw [h1, h2]
  cases hn : numText n with
  | nil => exact absurd hn (numText_ne_nil n)
  | cons d ds =>
    simp only
    rw [← hn]
    unfold numText
    rw [Nat.ofDigitChars_toDigits (by decide) (by decide)]

/-- The four relevances as `serde_json` prints them. Others do not come out of a store. -/
def plainFloat (r : F64) : Text :=
  if r = lit 0.4 then "0.4".toList else if r = lit 0.6 then "0.6".toList
  else if r = lit 0.8 then "0.8".toList else "1.0".toList

def readFloat (t : Text) : Option (F64 × Text) :=
  match expect "0.4".toList t, expect "0.6".toList t, expect "0.8".toList t,
    expect "1.0".toList t with
  | some t', _, _, _ => some (lit 0.4, t')
  | _, some t', _, _ => some (lit 0.6, t')
  | _, _, some t', _ => some (lit 0.8, t')
  | _, _, _, some t' => some (1, t')
  | _, _, _, _ => none

theorem readFloat_plain {r : F64} (h : r = lit 0.4 ∨ r = lit 0.6 ∨ r = lit 0.8 ∨ r = 1) (t : Text) :
    readFloat (plainFloat r ++ t) = some (r, t) := by
  have e1 : (lit 0.6 : F64) ≠ lit 0.4 := by decide +kernel
  have e2 : (lit 0.8 : F64) ≠ lit 0.4 := by decide +kernel
  have e3 : (lit 0.8 : F64) ≠ lit 0.6 := by decide +kernel
  have e4 : (1 : F64) ≠ lit 0.4 := by decide +kernel
  have e5 : (1 : F64) ≠ lit 0.6 := by decide +kernel
  have e6 : (1 : F64) ≠ lit 0.8 := by decide +kernel
  rcases h with rfl | rfl | rfl | rfl
  · simp [plainFloat, readFloat, expect]
  · simp [plainFloat, readFloat, expect, e1]
  · simp [plainFloat, readFloat, expect, e2, e3]
  · simp [plainFloat, readFloat, expect, e4, e5, e6]

def readEntry (t : Text) : Option (GridEntry × Text) := do
  let t ← expect "{\"relev\":".toList t
  let (relev, t) ← readFloat t
  let t ← expect ",\"score\":".toList t
  let (score, t) ← readNum t
  let t ← expect ",\"x\":".toList t
  let (x, t) ← readNum t
  let t ← expect ",\"y\":".toList t
  let (y, t) ← readNum t
  let t ← expect ",\"id\":".toList t
  let (id, t) ← readNum t
  let t ← expect ",\"source_phrase_hash\":".toList t
  let (hash, t) ← readNum t
  let t ← expect ['}'] t
  some (⟨relev, score, x, y, id, hash⟩, t)

theorem readEntry_text {e : GridEntry}
    (h : e.relev = lit 0.4 ∨ e.relev = lit 0.6 ∨ e.relev = lit 0.8 ∨ e.relev = 1) (t : Text) :
    readEntry (entryText plainFloat e ++ t) = some (e, t) := by
  unfold readEntry entryText
  simp only [List.append_assoc, expect_append, readFloat_plain h, Option.bind_eq_bind,
    Option.bind_some]
  rw [readNum_numText _ (by simp)]
  simp only [Option.bind_some, expect_append]
  rw [readNum_numText _ (by simp)]
  simp only [Option.bind_some, expect_append]
  rw [readNum_numText _ (by simp)]
  simp only [Option.bind_some, expect_append]
  rw [readNum_numText _ (by simp)]
  simp only [Option.bind_some, expect_append]
  rw [readNum_numText _ (by simp)]
  simp only [Option.bind_some, expect_append]

/-- Items separated by commas, at least one. -/
def readItems {α : Type} (p : Text → Option (α × Text)) : ℕ → Text → Option (List α × Text)
  | 0, _ => none
  | n + 1, t => (p t).bind fun r => match r.2 with
    | ',' :: t' => (readItems p n t').map fun q => (r.1 :: q.1, q.2)
    | _ => some ([r.1], r.2)

theorem readItems_text {α : Type} {p : Text → Option (α × Text)} {f : α → Text} {t : Text} :
    ∀ (l : List α) (n : ℕ), l ≠ [] → l.length ≤ n →
      (∀ x ∈ l, ∀ c r, c = ',' ∨ c = ']' → p (f x ++ c :: r) = some (x, c :: r)) →
      readItems p n (commaSep (l.map f) ++ ']' :: t) = some (l, ']' :: t) := by
  intro l
  induction l with
  | nil => intro n h; exact absurd rfl h
  | cons x l ih =>
    intro n _ hn hp
    cases n with
    | zero => simp at hn
    | succ n =>
      cases l with
      | nil =>
        simp only [List.map_cons, List.map_nil, commaSep, readItems]
        rw [hp x (by simp) ']' t (Or.inr rfl)]
        rfl
      | cons y l =>
        simp only [List.map_cons, commaSep, readItems, List.append_assoc, List.cons_append]
        rw [hp x (by simp) ',' _ (Or.inl rfl)]
        simp only [Option.bind_some]
        have := ih n (by simp) (by simpa using hn) fun z hz => hp z (by simp [hz])
        rw [List.map_cons] at this
        rw [this]
        rfl

def readList {α : Type} (p : Text → Option (α × Text)) (t : Text) : Option (List α × Text) :=
  match t with
  | ']' :: _ => some ([], t)
  | _ => readItems p t.length t

theorem commaSep_length {l : List Text} (h : ∀ t ∈ l, t ≠ []) : l.length ≤ (commaSep l).length := by
  induction l with
  | nil => simp
  | cons a l ih =>
    have ha : 1 ≤ a.length := List.length_pos_of_ne_nil (h a (by simp))
    cases l with
    | nil => simpa [commaSep] using ha
    | cons b l =>
      have := ih fun t ht => h t (by simp [ht])
      simp only [commaSep, List.length_append, List.length_cons] at this ⊢
      omega

theorem readList_text {α : Type} {p : Text → Option (α × Text)} {f : α → Text} {t : Text}
    {l : List α} (hf : ∀ x ∈ l, ∃ c r, f x = c :: r ∧ c ≠ ']')
    (hp : ∀ x ∈ l, ∀ c r, c = ',' ∨ c = ']' → p (f x ++ c :: r) = some (x, c :: r)) :
    readList p (commaSep (l.map f) ++ ']' :: t) = some (l, ']' :: t) := by
  cases l with
  | nil => simp [commaSep, readList]
  | cons x l =>
    obtain ⟨c, r, hc, hne⟩ := hf x (by simp)
    have hstart : ∃ r', commaSep ((x :: l).map f) ++ ']' :: t = c :: r' := by
      cases l with
      | nil => exact ⟨r ++ ']' :: t, by simp only [List.map_cons, List.map_nil, commaSep, hc, List.cons_append]⟩
      | cons y l => exact ⟨r ++ ',' :: commaSep (f y :: l.map f) ++ ']' :: t, by
          simp only [List.map_cons, commaSep, hc, List.cons_append]⟩
    have hlen : (x :: l).length ≤ (commaSep ((x :: l).map f) ++ ']' :: t).length := by
      rw [List.length_append]
      have := commaSep_length (l := (x :: l).map f) (by
        intro u hu
        obtain ⟨y, hy, rfl⟩ := List.mem_map.1 hu
        obtain ⟨c', r', h', _⟩ := hf y hy
        rw [h']; simp)
      rw [List.length_map] at this
      omega
    have h := readItems_text (t := t) (x :: l) _ (by simp) hlen hp
    obtain ⟨r', hr'⟩ := hstart
    unfold readList
    rw [hr'] at h ⊢
    split
    · rename_i heq
      exact absurd (List.cons.inj heq).1 hne
    · exact h

def readRecord (t : Text) : Option (GridKey × List GridEntry) := do
  let t ← expect "{\"grid_key\":{\"phrase_id\":".toList t
  let (phrase, t) ← readNum t
  let t ← expect ",\"lang_set\":".toList t
  let (lang, t) ← readNum t
  let t ← expect "},\"entries\":[".toList t
  let (es, t) ← readList readEntry t
  if t = "]}".toList then some (⟨phrase, lang⟩, es) else none

def readNums (t : Text) : Option (List ℕ) := do
  let t ← expect ['['] t
  let (l, t) ← readList readNum t
  if t = [']'] then some l else none

theorem readRecord_text {p : GridKey × List GridEntry} (h : Printable p) :
    readRecord (recordText plainFloat p) = some p := by
  unfold readRecord recordText
  simp only [expect_append, Option.bind_eq_bind, Option.bind_some]
  rw [readNum_numText _ (by simp)]
  simp only [Option.bind_some, expect_append]
  rw [readNum_numText _ (by simp)]
  simp only [Option.bind_some, expect_append]
  rw [show "]}".toList = ']' :: ['}'] from by simp]
  rw [readList_text]
  · simp
  · intro e _
    exact ⟨'{', _, by unfold entryText; rw [show "{\"relev\":".toList = '{' :: "\"relev\":".toList from by simp]; rfl, by decide⟩
  · intro e he c r _
    exact readEntry_text (h.2 e he).2 _

theorem readNums_text (l : List ℕ) : readNums (numsText l) = some l := by
  unfold readNums numsText
  have : '[' :: (commaSep (l.map numText) ++ [']']) = ['['] ++ (commaSep (l.map numText) ++ [']']) := rfl
  rw [this, expect_append]
  simp only [Option.bind_eq_bind, Option.bind_some]
  rw [readList_text]
  · simp
  · intro n _
    cases hn : numText n with
    | nil => exact absurd hn (numText_ne_nil n)
    | cons c r =>
      refine ⟨c, r, rfl, ?_⟩
      rintro rfl
      have := numText_digits n ']' (by rw [hn]; simp)
      exact absurd this (by decide)
  · intro n _ c r hc
    refine readNum_numText n ?_
    intro d hd
    simp only [List.head?_cons, Option.some.injEq] at hd
    subst hd
    rcases hc with rfl | rfl <;> decide

theorem plainFloat_line (r : F64) : '\n' ∉ plainFloat r := by
  unfold plainFloat
  split_ifs <;> simp

/-- A JSON crate: it prints the four relevances as `serde_json` does, and reads exactly what is
printed. -/
def plainJson : JsonCrate where
  float := plainFloat
  record := readRecord
  nums := readNums
  float_line := plainFloat_line
  record_read _ h := readRecord_text h
  nums_read l _ := readNums_text l

/-! ## Lines -/

theorem commaSep_line {l : List Text} (h : ∀ t ∈ l, '\n' ∉ t) : '\n' ∉ commaSep l := by
  induction l with
  | nil => simp [commaSep]
  | cons a l ih =>
    cases l with
    | nil => simpa [commaSep] using h a (by simp)
    | cons b l =>
      have := ih fun t ht => h t (by simp [ht])
      simp only [commaSep, List.mem_append, List.mem_cons, not_or]
      exact ⟨h a (by simp), by decide, this⟩

theorem numText_line (n : ℕ) : '\n' ∉ numText n := fun h =>
  absurd (numText_digits n _ h) (by decide)

theorem recordText_line (J : JsonCrate) (p : GridKey × List GridEntry) :
    '\n' ∉ recordText J.float p := by
  unfold recordText
  have he : ∀ t ∈ p.2.map (entryText J.float), '\n' ∉ t := by
    intro t ht
    obtain ⟨e, _, rfl⟩ := List.mem_map.1 ht
    unfold entryText
    simp only [List.mem_append, not_or]
    refine ⟨by simp, J.float_line _, by simp, numText_line _, by simp, numText_line _, by simp,
      numText_line _, by simp, numText_line _, by simp, numText_line _, by simp⟩
  simp only [List.mem_append, not_or]
  exact ⟨by simp, numText_line _, by simp, numText_line _, by simp, commaSep_line he, by simp⟩

theorem recordText_last (float : F64 → Text) (p : GridKey × List GridEntry) :
    (recordText float p).getLast? = some '}' := by
  unfold recordText
  have h : "]}".toList = [']', '}'] := by simp
  rw [h]
  simp only [← List.append_assoc]
  rw [List.getLast?_append]
  rfl

theorem linesFrom_line {l : Text} (hl : '\n' ∉ l) (acc t : Text) :
    linesFrom acc (l ++ '\n' :: t) = chomp (acc.reverse ++ l) :: linesFrom [] t := by
  induction l generalizing acc with
  | nil => simp [linesFrom]
  | cons c l ih =>
    simp only [List.mem_cons, not_or] at hl
    rw [List.cons_append, linesFrom, if_neg (Ne.symm hl.1), ih hl.2]
    simp

theorem linesFrom_records (J : JsonCrate) (l : List (GridKey × List GridEntry)) :
    linesFrom [] ((l.flatMap fun p => [recordText J.float p, ['\n']]).flatten) =
      l.map (recordText J.float) := by
  induction l with
  | nil => rfl
  | cons p l ih =>
    simp only [List.flatMap_cons, List.flatten_append, List.flatten_cons, List.flatten_nil,
      List.append_nil, List.map_cons, List.append_assoc, List.singleton_append]
    rw [linesFrom_line (recordText_line J p), ih]
    unfold chomp
    rw [List.reverse_nil, List.nil_append, recordText_last, if_neg (by decide)]

/-- If every write takes everything, everything is written. -/
theorem written_whole {takes : ℕ → ℕ → ℕ} (h : ∀ i n, n ≤ takes i n) (pieces : List Text) :
    written takes pieces = pieces.flatten := by
  unfold written
  have : (pieces.zipIdx.map fun p => if p.1.length < bufCapacity then p.1
      else p.1.take (takes p.2 p.1.length)) = pieces.zipIdx.map Prod.fst := by
    refine List.map_congr_left fun p _ => ?_
    split_ifs
    · rfl
    · exact List.take_of_length_le (h _ _)
  rw [this, List.zipIdx_map_fst]

end Carmen.Tools
