import Mathlib.Tactic.Ring
import Verif.Lemmas.Keys
import Verif.Lemmas.Finish
import Verif.Model.Store

/-! Byte order of database keys, scans of the sorted database. -/

namespace Carmen
open Format

theorem cons_lt_cons_iff' {a b : ℕ} {s t : Bytes} :
    a :: s < b :: t ↔ a < b ∨ (a = b ∧ s < t) := by
  rw [List.cons_lt_cons_iff]

/-- Big-endian byte strings of one length compare like the numbers. -/
theorem append_lt_of_ofBe_lt {a b : Bytes} (hl : a.length = b.length) (ha : IsBytes a)
    (hb : IsBytes b) (h : ofBe a < ofBe b) (s t : Bytes) : a ++ s < b ++ t := by
  induction a generalizing b with
  | nil => cases b with
    | nil => simp [ofBe_nil] at h
    | cons y b => simp at hl
  | cons x a ih =>
    cases b with
    | nil => simp at hl
    | cons y b =>
      have hl' : a.length = b.length := by simpa using hl
      have ha' : IsBytes a := fun z hz => ha z (by simp [hz])
      have hb' : IsBytes b := fun z hz => hb z (by simp [hz])
      have h1 := ofBe_lt ha'
      have h2 := ofBe_lt hb'
      rw [ofBe_cons, ofBe_cons, hl'] at h
      rw [hl'] at h1
      rw [List.cons_append, List.cons_append, cons_lt_cons_iff']
      rcases Nat.lt_trichotomy x y with hxy | rfl | hxy
      · exact Or.inl hxy
      · exact Or.inr ⟨rfl, ih hl' ha' hb' (by omega)⟩
      · exfalso
        have : (y + 1) * 256 ^ b.length ≤ x * 256 ^ b.length := Nat.mul_le_mul_right _ hxy
        rw [Nat.add_mul] at this
        omega

theorem le_of_append_lt {a b : Bytes} (hl : a.length = b.length) (ha : IsBytes a)
    (hb : IsBytes b) {s t : Bytes} (h : a ++ s < b ++ t) : ofBe a ≤ ofBe b := by
  by_contra hc
  have := append_lt_of_ofBe_lt hl.symm hb ha (by omega) t s
  exact absurd h (lt_asymm this)

/-- Order of two database keys of grid keys. -/
theorem phrase_le_of_dbKey_lt {m : TypeMarker} {k k' : GridKey} (hk : k.Wf) (hk' : k'.Wf)
    (h : k.dbKey m < k'.dbKey m) : k.phraseId ≤ k'.phraseId := by
  unfold GridKey.dbKey at h
  rw [cons_lt_cons_iff'] at h
  rcases h with h | ⟨_, h⟩
  · omega
  · have := le_of_append_lt (by rw [beBytes_length, beBytes_length]) (beBytes_lt _ _)
      (beBytes_lt _ _) h
    rwa [ofBe_beBytes (by have := hk.1; norm_num; exact this),
      ofBe_beBytes (by have := hk'.1; norm_num; exact this)] at this

theorem dbKey_lt_of_phrase_lt (m : TypeMarker) {k k' : GridKey} (hk : k.Wf) (hk' : k'.Wf)
    (h : k.phraseId < k'.phraseId) : k.dbKey m < k'.dbKey m := by
  unfold GridKey.dbKey
  rw [cons_lt_cons_iff']
  refine Or.inr ⟨rfl, append_lt_of_ofBe_lt (by rw [beBytes_length, beBytes_length])
    (beBytes_lt _ _) (beBytes_lt _ _) ?_ _ _⟩
  rwa [ofBe_beBytes (by have := hk.1; norm_num; exact this),
    ofBe_beBytes (by have := hk'.1; norm_num; exact this)]

theorem dbKey_lt_of_lang_lt (m : TypeMarker) {p l l' : ℕ} (hl : l < 2 ^ 128) (hl' : l' < 2 ^ 128)
    (hlen : (langBytes l).length = (langBytes l').length) (h : l < l') (h' : l' ≠ allLangs) :
    (⟨p, l⟩ : GridKey).dbKey m < (⟨p, l'⟩ : GridKey).dbKey m := by
  unfold GridKey.dbKey
  rw [cons_lt_cons_iff']
  refine Or.inr ⟨rfl, ?_⟩
  simp only
  have hla : l ≠ allLangs := by unfold allLangs at h' ⊢; omega
  have := append_lt_of_ofBe_lt (a := beBytes 4 p ++ langBytes l) (b := beBytes 4 p ++ langBytes l')
    (by simp [hlen]) ?_ ?_ ?_ [] []
  · simpa using this
  · intro x hx
    rcases List.mem_append.1 hx with h | h
    · exact beBytes_lt _ _ x h
    · exact langBytes_isBytes _ x h
  · intro x hx
    rcases List.mem_append.1 hx with h | h
    · exact beBytes_lt _ _ x h
    · exact langBytes_isBytes _ x h
  · have e : ∀ a b : Bytes, ofBe (a ++ b) = ofBe a * 256 ^ b.length + ofBe b := by
      intro a b
      induction a with
      | nil => simp [ofBe_nil]
      | cons x a ih =>
        rw [List.cons_append, ofBe_cons, ofBe_cons, ih, List.length_append, pow_add]
        ring
    rw [e, e, hlen, ofBe_langBytes hl hla, ofBe_langBytes hl' h']
    omega

/-- Position of a database key relative to the start of a scan. -/
theorem dbKey_lt_startKey (mk : MatchKey) (m m' : TypeMarker) {k : GridKey} (hk : k.Wf)
    (hs : mk.phrase.start < 2 ^ 32) :
    k.dbKey m' < mk.startKey m ↔
      m'.byte < m.byte ∨ (m' = m ∧ k.phraseId < mk.phrase.start) := by
  unfold GridKey.dbKey MatchKey.startKey
  rw [cons_lt_cons_iff']
  have hb : m'.byte = m.byte ↔ m' = m := by cases m <;> cases m' <;> simp [TypeMarker.byte]
  rw [hb]
  refine or_congr Iff.rfl (and_congr Iff.rfl ?_)
  have e : ofBe (beBytes 4 k.phraseId) = k.phraseId :=
    ofBe_beBytes (by have := hk.1; norm_num; exact this)
  have e' : ofBe (beBytes 4 mk.phrase.start) = mk.phrase.start :=
    ofBe_beBytes (by norm_num; exact hs)
  constructor
  · intro h
    have h' : beBytes 4 k.phraseId ++ langBytes k.langSet < beBytes 4 mk.phrase.start ++ [] := by
      simpa using h
    have hle := le_of_append_lt (by rw [beBytes_length, beBytes_length]) (beBytes_lt _ _)
      (beBytes_lt _ _) h'
    rw [e, e'] at hle
    rcases Nat.lt_or_eq_of_le hle with h1 | h1
    · exact h1
    · exfalso
      rw [h1] at h
      have : ∀ a b : Bytes, ¬ (a ++ b < a) := by
        intro a b
        induction a with
        | nil => simp
        | cons x a ih =>
          rw [List.cons_append, cons_lt_cons_iff']
          rintro (h | ⟨_, h⟩)
          · omega
          · exact ih h
      exact this _ _ h
  · intro h
    have := append_lt_of_ofBe_lt (a := beBytes 4 k.phraseId) (b := beBytes 4 mk.phrase.start)
      (by rw [beBytes_length, beBytes_length]) (beBytes_lt _ _)
      (beBytes_lt _ _) (by rw [e, e']; exact h) (langBytes k.langSet) []
    simpa using this

theorem boundsKey_not_lt_startKey (mk : MatchKey) (m : TypeMarker) :
    ¬ Builder.boundsKey < mk.startKey m := by
  unfold Builder.boundsKey MatchKey.startKey
  rw [cons_lt_cons_iff']
  cases m <;> simp [TypeMarker.byte]

theorem dbKey_lt_bounds (m : TypeMarker) (k : GridKey) : k.dbKey m < Builder.boundsKey := by
  unfold Builder.boundsKey GridKey.dbKey
  rw [cons_lt_cons_iff']
  left
  cases m <;> simp [TypeMarker.byte]

theorem single_lt_bin (k k' : GridKey) : k.dbKey .singlePhrase < k'.dbKey .prefixBin := by
  unfold GridKey.dbKey
  rw [cons_lt_cons_iff']
  left; simp [TypeMarker.byte]

/-! ### Scans -/

theorem takeWhile_eq_filter {α : Type} {R : α → α → Prop} {p : α → Bool} {l : List α}
    (hl : l.Pairwise R) (hp : ∀ a b, a ∈ l → b ∈ l → R a b → p b = true → p a = true) :
    l.takeWhile p = l.filter p := by
  induction l with
  | nil => rfl
  | cons a t ih =>
    rw [List.pairwise_cons] at hl
    by_cases h : p a = true
    · rw [List.takeWhile_cons_of_pos h, List.filter_cons_of_pos h,
        ih hl.2 (fun x y hx hy => hp x y (by simp [hx]) (by simp [hy]))]
    · rw [List.takeWhile_cons_of_neg h, List.filter_cons_of_neg h]
      symm
      rw [List.filter_eq_nil_iff]
      intro b hb hpb
      exact h (hp a b (by simp) (by simp [hb]) (hl.1 b hb) hpb)

theorem dropWhile_eq_filter {α : Type} {R : α → α → Prop} {p : α → Bool} {l : List α}
    (hl : l.Pairwise R) (hp : ∀ a b, a ∈ l → b ∈ l → R a b → p b = true → p a = true) :
    l.dropWhile p = l.filter (fun a => !p a) := by
  induction l with
  | nil => rfl
  | cons a t ih =>
    rw [List.pairwise_cons] at hl
    by_cases h : p a = true
    · rw [List.dropWhile_cons_of_pos h, List.filter_cons_of_neg (by simp [h]),
        ih hl.2 (fun x y hx hy => hp x y (by simp [hx]) (by simp [hy]))]
    · rw [List.dropWhile_cons_of_neg h, List.filter_cons_of_pos (by simp [h])]
      congr 1
      symm
      rw [List.filter_eq_self]
      intro b hb
      by_contra hc
      simp only [Bool.not_eq_true', Bool.not_eq_false] at hc
      exact h (hp a b (by simp) (by simp [hb]) (hl.1 b hb) hc)

theorem readBe4_tail_dbKey (m : TypeMarker) {k : GridKey} (hk : k.Wf) :
    readBe4 (k.dbKey m).tail = some k.phraseId := by
  rw [dbKey_tail, readBe4_append hk.1]

theorem decodeKey_dbKey (m : TypeMarker) {k : GridKey} (hk : k.Wf) :
    Store.decodeKey (k.dbKey m) = some k := by
  unfold Store.decodeKey
  rw [readBe4_tail_dbKey m hk, keyLang_dbKey m hk]
  rfl

open Builder in
/-- The rows `keys` and `iter` scan are exactly the phrase rows of the builder. -/
theorem phraseRows_finish {o : IterOrder} {b : Builder} (hb : b.Wf) {db : SMap Bytes Bytes}
    (h : finish o b = some db) {s : Store} (hs : s.db = db) {r : Bytes × Bytes} :
    r ∈ s.phraseRows ↔
      ∃ k e, (k, e) ∈ b.data ∧ r = (k.dbKey .singlePhrase, encodeValue o e) := by
  have hsort := finish_sorted h
  unfold Store.phraseRows
  rw [hs]
  have hfil : db.takeWhile (fun r => decide (r.1.head? = some 0)) =
      db.filter (fun r => decide (r.1.head? = some 0)) := by
    refine takeWhile_eq_filter hsort ?_
    intro x y hx hy hxy hp
    rcases finish_rows hb h hx with ⟨k, e, _, rfl⟩ | ⟨k, _, hk⟩ | hk
    · simp [GridKey.dbKey, TypeMarker.byte]
    · exfalso
      rcases finish_rows hb h hy with ⟨k', e', _, rfl⟩ | ⟨k', _, hk'⟩ | hk'
      · rw [hk] at hxy
        exact lt_asymm hxy (single_lt_bin k' k)
      · rw [hk'] at hp; simp [GridKey.dbKey, TypeMarker.byte] at hp
      · rw [hk'] at hp; simp [boundsKey] at hp
    · exfalso
      rcases finish_rows hb h hy with ⟨k', e', _, rfl⟩ | ⟨k', _, hk'⟩ | hk'
      · rw [hk] at hxy
        exact lt_asymm hxy (dbKey_lt_bounds _ k')
      · rw [hk'] at hp; simp [GridKey.dbKey, TypeMarker.byte] at hp
      · rw [hk'] at hp; simp [boundsKey] at hp
  rw [hfil, List.mem_filter]
  constructor
  · rintro ⟨hm, hp⟩
    rcases finish_rows hb h hm with h1 | ⟨k', _, hk'⟩ | hk'
    · exact h1
    · rw [hk'] at hp; simp [GridKey.dbKey, TypeMarker.byte] at hp
    · rw [hk'] at hp; simp [boundsKey] at hp
  · rintro ⟨k, e, hm, rfl⟩
    refine ⟨(SMap.mem_iff_find hsort).2 ?_, by simp [GridKey.dbKey, TypeMarker.byte]⟩
    rw [find_finish hb h (hb.keys _ hm), (SMap.mem_iff_find hb.sorted).1 hm]
    rfl

theorem phraseRows_sorted {s : Store} (h : SMap.Sorted s.db) :
    s.phraseRows.Pairwise (fun a b => a.1 < b.1) :=
  h.sublist (List.takeWhile_sublist _)

end Carmen
