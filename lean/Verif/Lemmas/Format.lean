import Verif.Model.Format
import Verif.Lemmas.Bytes

/-!
Reading back what was written. `HasAt buf a b`: the bytes `b` sit at address `a` of
`buf`; this survives every later write, which only appends.
-/

namespace Carmen.Format

/-- The bytes `b` sit at address `a` of `buf`. -/
def HasAt (buf : Bytes) (a : ℕ) (b : Bytes) : Prop :=
  ∃ pre post, buf = pre ++ (b ++ post) ∧ pre.length = a

theorem HasAt.append {buf b : Bytes} {a : ℕ} (h : HasAt buf a b) (more : Bytes) :
    HasAt (buf ++ more) a b := by
  obtain ⟨pre, post, rfl, h2⟩ := h
  exact ⟨pre, post ++ more, by simp, h2⟩

theorem hasAt_self (pre b post : Bytes) : HasAt (pre ++ (b ++ post)) pre.length b :=
  ⟨pre, post, rfl, rfl⟩

theorem HasAt.left {buf b c : Bytes} {a : ℕ} (h : HasAt buf a (b ++ c)) : HasAt buf a b := by
  obtain ⟨pre, post, rfl, h2⟩ := h
  exact ⟨pre, c ++ post, by simp, h2⟩

theorem HasAt.right {buf b c : Bytes} {a : ℕ} (h : HasAt buf a (b ++ c)) :
    HasAt buf (a + b.length) c := by
  obtain ⟨pre, post, rfl, h2⟩ := h
  exact ⟨pre ++ b, post, by simp, by simp [h2]⟩

theorem HasAt.length_le {buf b : Bytes} {a : ℕ} (h : HasAt buf a b) :
    a + b.length ≤ buf.length := by
  obtain ⟨pre, post, rfl, h2⟩ := h
  simp; omega

theorem HasAt.slice {buf b : Bytes} {a : ℕ} (h : HasAt buf a b) :
    slice buf a b.length = some b := by
  have hl := h.length_le
  obtain ⟨pre, post, rfl, rfl⟩ := h
  unfold Format.slice
  rw [if_pos hl]
  simp

theorem HasAt.readU32 {buf : Bytes} {a n : ℕ} (h : HasAt buf a (leBytes 4 n))
    (hn : n < 2 ^ 32) : readU32 buf a = some n := by
  have := h.slice
  rw [leBytes_length] at this
  unfold Format.readU32
  rw [this, Option.map_some, ofLe_leBytes_of_lt (by norm_num; exact hn)]

theorem HasAt.readVar {buf : Bytes} {a n : ℕ} (h : HasAt buf a (encodeVar n))
    (hn : n < 2 ^ 32) : readVar buf a = some (n, (encodeVar n).length) := by
  have hl := h.length_le
  obtain ⟨pre, post, rfl, rfl⟩ := h
  unfold Format.readVar
  rw [if_pos (by simp)]
  simp [decodeVar_encodeVar hn]

theorem HasAt.getElem {buf t : Bytes} {a b : ℕ} (h : HasAt buf a (b :: t)) :
    buf[a]? = some b := by
  obtain ⟨pre, post, rfl, rfl⟩ := h
  simp

/-- Reading `n` items one after another from an address. -/
theorem mapM_range_of_hasAt {α : Type} (buf : Bytes) (enc : α → Bytes) (sz : ℕ)
    (read : ℕ → Option α) (items : List α) (hsz : ∀ x ∈ items, (enc x).length = sz)
    (hread : ∀ x ∈ items, ∀ a, HasAt buf a (enc x) → read a = some x) :
    ∀ a k, HasAt buf (a + k * sz) (items.flatMap enc) →
      (List.range' k items.length).mapM (fun pos => read (a + pos * sz)) = some items := by
  induction items with
  | nil => intro a k _; rfl
  | cons x xs ih =>
    intro a k h
    rw [List.flatMap_cons] at h
    rw [List.length_cons, List.range'_succ, List.mapM_cons,
      hread x (by simp) _ h.left]
    have h2 := h.right
    rw [hsz x (by simp), show a + k * sz + sz = a + (k + 1) * sz by ring] at h2
    rw [ih (fun y hy => hsz y (by simp [hy])) (fun y hy => hread y (by simp [hy])) a (k + 1) h2]
    rfl

/-- The bytes of a fixed vector. -/
def fixedBytes (items : List ℕ) : Bytes := lenPrefix items.length ++ items.flatMap (leBytes 4)

theorem writeFixedVec_hasAt (buf : Bytes) (items : List ℕ) :
    HasAt (writeFixedVec buf items).1 (writeFixedVec buf items).2 (fixedBytes items) :=
  ⟨buf, [], by simp [writeFixedVec, fixedBytes], rfl⟩

theorem lenPrefix_eq {n : ℕ} (h : n < 2 ^ 32) : lenPrefix n = encodeVar n := by
  unfold lenPrefix; rw [Nat.mod_eq_of_lt h]

theorem HasAt.readFixedVec {buf : Bytes} {a : ℕ} {items : List ℕ}
    (h : HasAt buf a (fixedBytes items)) (hlen : items.length < 2 ^ 32)
    (hit : ∀ i ∈ items, i < 2 ^ 32) : readFixedVec buf a = some items := by
  unfold fixedBytes at h
  rw [lenPrefix_eq hlen] at h
  unfold Format.readFixedVec
  rw [h.left.readVar hlen]
  simp only [Option.bind_eq_bind, Option.bind_some]
  rw [List.range_eq_range']
  refine mapM_range_of_hasAt buf (leBytes 4) 4 (Format.readU32 buf) items
    (fun x _ => leBytes_length 4 x) (fun x hx a ha => ha.readU32 (hit x hx)) _ 0 ?_
  simpa using h.right

/-- The bytes of a uniform vector. -/
def uniformBytes (s : List Coord) : Bytes :=
  lenPrefix s.length ++ ([recSize s % 256] ++ s.flatMap (Coord.write (recSize s)))

theorem writeUniformVec_hasAt (buf : Bytes) (s : List Coord) :
    HasAt (writeUniformVec buf s).1 (writeUniformVec buf s).2 (uniformBytes s) :=
  ⟨buf, [], by simp [writeUniformVec, uniformBytes], rfl⟩

theorem Coord.minSize_bounds (c : Coord) : 5 ≤ c.minSize ∧ c.minSize ≤ 8 := by
  unfold Coord.minSize
  split_ifs <;> omega

theorem foldl_max_le (l : List ℕ) (a n : ℕ) (ha : a ≤ n) (h : ∀ x ∈ l, x ≤ n) :
    l.foldl max a ≤ n := by
  induction l generalizing a with
  | nil => exact ha
  | cons x xs ih =>
    exact ih (max a x) (max_le ha (h x (by simp))) (fun y hy => h y (by simp [hy]))

theorem le_foldl_max (l : List ℕ) (a : ℕ) : a ≤ l.foldl max a ∧ ∀ x ∈ l, x ≤ l.foldl max a := by
  induction l generalizing a with
  | nil => simp
  | cons x xs ih =>
    obtain ⟨h1, h2⟩ := ih (max a x)
    refine ⟨le_trans (le_max_left _ _) h1, ?_⟩
    intro y hy
    rcases List.mem_cons.1 hy with rfl | hy
    · exact le_trans (le_max_right _ _) h1
    · exact h2 y hy

theorem minSize_le_recSize {s : List Coord} {c : Coord} (hc : c ∈ s) :
    c.minSize ≤ recSize s := by
  cases s with
  | nil => simp at hc
  | cons a t =>
    unfold recSize
    simp only [List.map_cons]
    rcases List.mem_cons.1 hc with rfl | hc
    · exact (le_foldl_max _ _).1
    · exact (le_foldl_max _ _).2 _ (List.mem_map_of_mem hc)

theorem recSize_le {s : List Coord} (hs : s ≠ []) : recSize s ≤ 8 := by
  cases s with
  | nil => exact absurd rfl hs
  | cons a t =>
    unfold recSize
    simp only [List.map_cons]
    refine foldl_max_le _ _ 8 (Coord.minSize_bounds a).2 ?_
    intro x hx
    obtain ⟨c, _, rfl⟩ := List.mem_map.1 hx
    exact (Coord.minSize_bounds c).2

/-- The record width chosen for a vector is wide enough for each of its pointers. -/
theorem ids_lt_of_minSize {c : Coord} {n : ℕ} (hc : c.ids < 2 ^ 32) (h : c.minSize ≤ n) :
    c.ids < 256 ^ (n - 4) := by
  have hb := Coord.minSize_bounds c
  have : c.ids < 256 ^ (c.minSize - 4) := by
    unfold Coord.minSize
    split_ifs <;> norm_num <;> omega
  exact lt_of_lt_of_le this (Nat.pow_le_pow_right (by norm_num) (by omega))

theorem HasAt.readCoord {buf : Bytes} {a size : ℕ} {c : Coord} (hs4 : 5 ≤ size) (hs8 : size ≤ 8)
    (h : HasAt buf a (c.write size)) (hc : c.coord < 2 ^ 32) (hi : c.ids < 256 ^ (size - 4)) :
    readCoord buf size a = some c := by
  unfold Coord.write at h
  rw [leBytes_take (by omega)] at h
  unfold Format.readCoord
  rw [h.left.readU32 hc]
  have h2 := h.right.slice
  rw [leBytes_length, leBytes_length] at h2
  simp only [Option.bind_eq_bind, Option.bind_some]
  rw [if_pos ⟨by omega, hs8⟩, h2]
  simp [ofLe_leBytes_of_lt hi]

theorem Coord.write_length {size : ℕ} (c : Coord) (h4 : 5 ≤ size) (h8 : size ≤ 8) :
    (c.write size).length = size := by
  unfold Coord.write
  rw [leBytes_take (by omega)]
  simp [leBytes_length]; omega

theorem HasAt.readUniformVec {buf : Bytes} {a : ℕ} {s : List Coord}
    (h : HasAt buf a (uniformBytes s)) (hlen : s.length < 2 ^ 32)
    (hc : ∀ c ∈ s, c.coord < 2 ^ 32) (hi : ∀ c ∈ s, c.ids < 2 ^ 32) :
    readUniformVec buf a = some s := by
  unfold uniformBytes at h
  rw [lenPrefix_eq hlen] at h
  unfold Format.readUniformVec
  rw [h.left.readVar hlen]
  have h1 := h.right
  simp only [Option.bind_eq_bind, Option.bind_some]
  rw [h1.left.getElem]
  simp only [Option.bind_some]
  cases hs : s with
  | nil => rfl
  | cons c t =>
    rw [← hs]
    have hne : s ≠ [] := by rw [hs]; simp
    have h8 := recSize_le hne
    have h5 : 5 ≤ recSize s := by
      have : c ∈ s := by rw [hs]; simp
      exact le_trans (Coord.minSize_bounds c).1 (minSize_le_recSize this)
    rw [Nat.mod_eq_of_lt (by omega : recSize s < 256)]
    rw [List.range_eq_range']
    refine mapM_range_of_hasAt buf (Coord.write (recSize s)) (recSize s)
      (Format.readCoord buf (recSize s)) s (fun x _ => x.write_length h5 h8)
      (fun x hx a ha => ha.readCoord h5 h8 (hc x hx)
        (ids_lt_of_minSize (hi x hx) (minSize_le_recSize hx))) _ 0 ?_
    have h2 := h1.right
    simpa using h2

/-- The bytes of a variable-size vector. -/
def varBytes (s : List RelevScore) : Bytes := lenPrefix s.length ++ s.flatMap RelevScore.write

theorem writeVarVec_hasAt (buf : Bytes) (s : List RelevScore) :
    HasAt (writeVarVec buf s).1 (writeVarVec buf s).2 (varBytes s) :=
  ⟨buf, [], by simp [writeVarVec, varBytes], rfl⟩

theorem HasAt.readRelevScore {buf : Bytes} {a : ℕ} {r : RelevScore}
    (h : HasAt buf a r.write) (h1 : r.relevScore < 256) (h2 : r.coords < 2 ^ 32) :
    readRelevScore buf a = some (r, r.write.length) := by
  unfold RelevScore.write at h
  rw [Nat.mod_eq_of_lt h1, Nat.mod_eq_of_lt h2] at h
  unfold Format.readRelevScore
  rw [h.getElem]
  have h3 : HasAt buf (a + 1) (encodeVar r.coords) :=
    HasAt.right (b := [r.relevScore]) (by simpa using h)
  simp only [Option.bind_eq_bind, Option.bind_some]
  rw [h3.readVar h2]
  unfold RelevScore.write
  rw [Nat.mod_eq_of_lt h2]
  simp
  omega

theorem HasAt.readVarItems {buf : Bytes} {s : List RelevScore}
    (h1 : ∀ r ∈ s, r.relevScore < 256) (h2 : ∀ r ∈ s, r.coords < 2 ^ 32) :
    ∀ {a : ℕ}, HasAt buf a (s.flatMap RelevScore.write) →
      readVarItems buf s.length a = some s := by
  induction s with
  | nil => intro a _; rfl
  | cons r t ih =>
    intro a h
    rw [List.flatMap_cons] at h
    rw [List.length_cons, Format.readVarItems,
      h.left.readRelevScore (h1 r (by simp)) (h2 r (by simp))]
    simp only [Option.bind_eq_bind, Option.bind_some]
    rw [ih (fun x hx => h1 x (by simp [hx])) (fun x hx => h2 x (by simp [hx])) h.right]
    rfl

theorem HasAt.readVarVec {buf : Bytes} {a : ℕ} {s : List RelevScore}
    (h : HasAt buf a (varBytes s)) (hlen : s.length < 2 ^ 32)
    (h1 : ∀ r ∈ s, r.relevScore < 256) (h2 : ∀ r ∈ s, r.coords < 2 ^ 32) :
    readVarVec buf a = some s := by
  unfold varBytes at h
  rw [lenPrefix_eq hlen] at h
  unfold Format.readVarVec
  rw [h.left.readVar hlen]
  simp only [Option.bind_eq_bind, Option.bind_some]
  exact HasAt.readVarItems h1 h2 h.right

theorem readRoot_writeRoot (buf : Bytes) {a : ℕ} (ha : a < 2 ^ 32) :
    readRoot (writeRoot buf a) = some a := by
  unfold readRoot writeRoot
  rw [if_neg (by simp [leBytes_length])]
  have : HasAt (buf ++ leBytes 4 a) buf.length (leBytes 4 a) := ⟨buf, [], by simp, rfl⟩
  have h2 := this.readU32 ha
  simpa [leBytes_length] using h2

end Carmen.Format
