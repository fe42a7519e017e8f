import Verif.Model.Builder
import Verif.Lemmas.Bytes
import Verif.Lemmas.SMap

namespace Carmen

theorem ofBe_nil : ofBe [] = 0 := rfl

theorem ofBe_dropWhile_zero (b : Bytes) : ofBe (b.dropWhile (· = 0)) = ofBe b := by
  induction b with
  | nil => rfl
  | cons a t ih =>
    rw [List.dropWhile_cons]
    split
    · rename_i h
      have : a = 0 := by simpa using h
      subst this
      rw [ofBe_cons, ih]; simp
    · rfl

theorem langBytes_length {l : ℕ} (_h : l < 2 ^ 128) : (langBytes l).length ≤ 16 := by
  unfold langBytes
  split
  · simp
  · split
    · simp
    · exact le_trans (List.dropWhile_sublist _).length_le (le_of_eq (beBytes_length 16 l))

theorem langBytes_ne_nil {l : ℕ} (hl : l < 2 ^ 128) (h : l ≠ allLangs) : langBytes l ≠ [] := by
  unfold langBytes
  rw [if_neg h]
  split
  · simp
  · rename_i h0
    intro hd
    have h1 := ofBe_dropWhile_zero (beBytes 16 l)
    rw [hd, ofBe_nil, ofBe_beBytes (by norm_num; exact hl)] at h1
    exact h0 h1.symm

theorem ofBe_langBytes {l : ℕ} (hl : l < 2 ^ 128) (h : l ≠ allLangs) :
    ofBe (langBytes l) = l := by
  unfold langBytes
  rw [if_neg h]
  split
  · rename_i h0; rw [h0]; rfl
  · rw [ofBe_dropWhile_zero, ofBe_beBytes (by norm_num; exact hl)]

theorem langBytes_allLangs : langBytes allLangs = [] := by simp [langBytes]

theorem langBytes_isBytes (l : ℕ) : IsBytes (langBytes l) := by
  unfold langBytes
  split
  · intro x hx; simp at hx
  · split
    · intro x hx; simp at hx; omega
    · intro x hx
      exact beBytes_lt 16 l x (List.dropWhile_subset _ hx)

theorem dbKey_length_ge (m : TypeMarker) (k : GridKey) : 5 ≤ (k.dbKey m).length := by
  unfold GridKey.dbKey
  simp [beBytes_length]

theorem dbKey_tail (m : TypeMarker) (k : GridKey) :
    (k.dbKey m).tail = beBytes 4 k.phraseId ++ langBytes k.langSet := rfl

theorem dbKey_drop5 (m : TypeMarker) (k : GridKey) :
    (k.dbKey m).drop 5 = langBytes k.langSet := by
  unfold GridKey.dbKey
  rw [List.drop_succ_cons, List.drop_append_of_le_length (by rw [beBytes_length])]
  rw [List.drop_eq_nil_of_le (by rw [beBytes_length])]; rfl

theorem readBe4_append {p : ℕ} (hp : p < 2 ^ 32) (t : Bytes) :
    readBe4 (beBytes 4 p ++ t) = some p := by
  unfold readBe4
  rw [if_neg (by simp [beBytes_length])]
  rw [List.take_append_of_le_length (by rw [beBytes_length]),
    List.take_of_length_le (by rw [beBytes_length]), ofBe_beBytes (by norm_num; exact hp)]

theorem keyLang_dbKey (m : TypeMarker) {k : GridKey} (hk : k.Wf) :
    keyLang (k.dbKey m) = some k.langSet := by
  unfold keyLang
  rw [if_neg (by have := dbKey_length_ge m k; omega)]
  simp only [dbKey_drop5]
  by_cases h : k.langSet = allLangs
  · rw [h, langBytes_allLangs]; rfl
  · have h1 := langBytes_ne_nil hk.2 h
    rw [if_neg (by simpa using h1), if_neg (by have := langBytes_length hk.2; omega),
      ofBe_langBytes hk.2 h]

theorem matchesKey_dbKey (mk : MatchKey) (m m' : TypeMarker) {k : GridKey} (hk : k.Wf) :
    mk.matchesKey m (k.dbKey m') = some (decide (m' = m) && (match mk.phrase with
        | .exact id => decide (id = k.phraseId)
        | .range s e => decide (s ≤ k.phraseId ∧ k.phraseId < e))) := by
  unfold MatchKey.matchesKey GridKey.dbKey
  simp only [readBe4_append hk.1]
  by_cases h : m' = m
  · subst h; cases mk.phrase <;> simp
  · rw [if_pos (by cases m <;> cases m' <;> simp_all [TypeMarker.byte])]
    simp [h]

theorem matchesLanguage_dbKey (mk : MatchKey) (m : TypeMarker) {k : GridKey} (hk : k.Wf) :
    mk.matchesLanguage (k.dbKey m) =
      some (decide (k.langSet = allLangs) || decide (mk.langSet &&& k.langSet ≠ 0)) := by
  unfold MatchKey.matchesLanguage
  rw [if_neg (by have := dbKey_length_ge m k; omega)]
  simp only [dbKey_drop5]
  by_cases h : k.langSet = allLangs
  · rw [h, langBytes_allLangs]; simp
  · have h1 := langBytes_ne_nil hk.2 h
    rw [if_neg (by simpa using h1), if_neg (by have := langBytes_length hk.2; omega),
      ofBe_langBytes hk.2 h]
    simp [h]

theorem dbKey_inj {m m' : TypeMarker} {k k' : GridKey} (hk : k.Wf) (hk' : k'.Wf)
    (h : k.dbKey m = k'.dbKey m') : m = m' ∧ k = k' := by
  have h1 : m.byte = m'.byte := by
    have := congrArg List.head? h
    simpa [GridKey.dbKey] using this
  have h2 : k.phraseId = k'.phraseId := by
    have := congrArg (fun l => readBe4 l.tail) h
    simp only [dbKey_tail, readBe4_append hk.1, readBe4_append hk'.1] at this
    simpa using this
  have h3 : k.langSet = k'.langSet := by
    have := congrArg keyLang h
    rw [keyLang_dbKey m hk, keyLang_dbKey m' hk'] at this
    simpa using this
  refine ⟨by cases m <;> cases m' <;> simp_all [TypeMarker.byte], ?_⟩
  cases k; cases k'; simp_all

theorem dbKey_ne_bounds (m : TypeMarker) (k : GridKey) : k.dbKey m ≠ Builder.boundsKey := by
  intro h
  have := congrArg List.head? h
  cases m <;> simp [GridKey.dbKey, Builder.boundsKey, TypeMarker.byte] at this

end Carmen
