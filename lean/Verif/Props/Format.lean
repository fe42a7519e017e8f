import Verif.Lemmas.Format
import Verif.Model.Store

/-!
# C13: vectors in records read back identically; C14: boundaries survive the trip to disk
-/

namespace Carmen
open Format

/-- C13, fixed-size items: whatever precedes and follows, the vector reads back. -/
theorem C13_fixed_vec_roundtrip (pre post : Bytes) (items : List ℕ)
    (hlen : items.length < 2 ^ 32) (hitems : ∀ i ∈ items, i < 2 ^ 32) :
    readFixedVec ((writeFixedVec pre items).1 ++ post) (writeFixedVec pre items).2
      = some items :=
  ((writeFixedVec_hasAt pre items).append post).readFixedVec hlen hitems

example : readFixedVec ((writeFixedVec [9, 9] [2 ^ 32 - 1, 0, 258]).1 ++ [1, 2, 3]) 2
    = some [2 ^ 32 - 1, 0, 258] := by decide +kernel

/-- C13, uniform-size items: the record width is chosen by the writer and no pointer is
cut by it. -/
theorem C13_uniform_vec_roundtrip (pre post : Bytes) (items : List Coord)
    (hlen : items.length < 2 ^ 32) (hcoord : ∀ c ∈ items, c.coord < 2 ^ 32)
    (hptr : ∀ c ∈ items, c.ids < 2 ^ 32) :
    readUniformVec ((writeUniformVec pre items).1 ++ post) (writeUniformVec pre items).2
      = some items :=
  ((writeUniformVec_hasAt pre items).append post).readUniformVec hlen hcoord hptr

/-- Pointers of all four widths in one vector. -/
example : readUniformVec
    ((writeUniformVec [7] [⟨5, 255⟩, ⟨4, 256⟩, ⟨3, 65536⟩, ⟨2, 2 ^ 24⟩]).1 ++ [1]) 1
    = some [⟨5, 255⟩, ⟨4, 256⟩, ⟨3, 65536⟩, ⟨2, 2 ^ 24⟩] := by decide +kernel

/-- The empty vector (written with width byte 255) reads back as empty. -/
example : readUniformVec ((writeUniformVec [7] []).1 ++ [1]) 1 = some [] := by decide +kernel

/-- C13, width of the uniform items: a nonempty vector takes, after its length and the width
byte, the same `n` bytes for every item, four of them for the tile. The other `n - 4` hold every
pointer, and no smaller number of bytes (at least one) would. -/
theorem C13_uniform_vec_width (pre : Bytes) {items : List Coord} (hne : items ≠ [])
    (hptr : ∀ c ∈ items, c.ids < 2 ^ 32) :
    ∃ n, 5 ≤ n ∧ n ≤ 8 ∧
      (writeUniformVec pre items).1.length =
        pre.length + (lenPrefix items.length).length + 1 + items.length * n ∧
      (∀ c ∈ items, c.ids < 256 ^ (n - 4)) ∧
      ∀ m, 5 ≤ m → (∀ c ∈ items, c.ids < 256 ^ (m - 4)) → n ≤ m := by
  obtain ⟨c0, hc0⟩ := List.exists_mem_of_ne_nil _ hne
  have h5 : 5 ≤ recSize items :=
    le_trans (Coord.minSize_bounds c0).1 (minSize_le_recSize hc0)
  have h8 := recSize_le hne
  refine ⟨recSize items, h5, h8, ?_, fun c hc => ids_lt_of_minSize (hptr c hc)
    (minSize_le_recSize hc), ?_⟩
  · have hw : ∀ c : Coord, (Coord.write (recSize items) c).length = recSize items := by
      intro c
      simp only [Coord.write, List.length_append, List.length_take, leBytes_length]
      omega
    have : (items.flatMap (Coord.write (recSize items))).length =
        items.length * recSize items := by
      rw [List.length_flatMap]
      simp only [hw, List.map_const', List.sum_replicate]; rfl
    simp only [writeUniformVec, List.length_append, List.length_singleton, this]
  · intro m hm h
    cases items with
    | nil => exact absurd rfl hne
    | cons a t =>
      unfold recSize
      simp only [List.map_cons]
      have key : ∀ c ∈ a :: t, Coord.minSize c ≤ m := by
        intro c hc
        have h1 := h c hc
        by_cases h8 : 8 ≤ m
        · exact le_trans (Coord.minSize_bounds c).2 h8
        · have : m = 5 ∨ m = 6 ∨ m = 7 := by omega
          rcases this with rfl | rfl | rfl <;> norm_num at h1 <;>
            (unfold Coord.minSize; split_ifs <;> omega)
      refine foldl_max_le _ _ m (key a (by simp)) ?_
      intro x hx
      obtain ⟨c, hc, rfl⟩ := List.mem_map.1 hx
      exact key c (by simp [hc])

/-- Two bytes of pointer from 256 on, one byte up to 255. -/
example : (writeUniformVec [] [⟨9, 255⟩, ⟨5, 7⟩]).1.length = 1 + 1 + 2 * 5 ∧
    (writeUniformVec [] [⟨9, 256⟩, ⟨5, 7⟩]).1.length = 1 + 1 + 2 * 6 := by decide +kernel

/-- C13, variable-size items. -/
theorem C13_var_vec_roundtrip (pre post : Bytes) (items : List RelevScore)
    (hlen : items.length < 2 ^ 32) (hrs : ∀ r ∈ items, r.relevScore < 2 ^ 8)
    (hptr : ∀ r ∈ items, r.coords < 2 ^ 32) :
    readVarVec ((writeVarVec pre items).1 ++ post) (writeVarVec pre items).2 = some items :=
  ((writeVarVec_hasAt pre items).append post).readVarVec hlen hrs hptr

example : readVarVec ((writeVarVec [] [⟨63, 2 ^ 32 - 1⟩, ⟨48, 127⟩, ⟨0, 128⟩]).1 ++ [200]) 0
    = some [⟨63, 2 ^ 32 - 1⟩, ⟨48, 127⟩, ⟨0, 128⟩] := by decide +kernel

/-- C13, the root pointer in the last four bytes. -/
theorem C13_root_roundtrip (buf : Bytes) (addr : ℕ) (h : addr < 2 ^ 32) :
    readRoot (writeRoot buf addr) = some addr := readRoot_writeRoot buf h

/-- C14. The stored boundaries decode to exactly the boundaries loaded, in order. -/
theorem C14_boundaries_roundtrip (bounds : List ℕ) (h : ∀ b ∈ bounds, b < 2 ^ 32) :
    Store.decodeBounds (Builder.boundsValue bounds) = bounds := by
  induction bounds with
  | nil => rfl
  | cons b t ih =>
    have hb : ofLe (leBytes 4 b) = b := ofLe_leBytes_of_lt (by
      have := h b (by simp); norm_num; exact this)
    have ht := ih (fun x hx => h x (by simp [hx]))
    unfold Builder.boundsValue at ht ⊢
    rw [List.flatMap_cons]
    generalize t.flatMap (leBytes 4) = r at ht ⊢
    simp only [leBytes, List.cons_append, List.nil_append, Store.decodeBounds] at hb ⊢
    rw [hb, ht]

example : Store.decodeBounds (Builder.boundsValue [0, 255, 256, 2 ^ 32 - 1])
    = [0, 255, 256, 2 ^ 32 - 1] := by decide +kernel

end Carmen
