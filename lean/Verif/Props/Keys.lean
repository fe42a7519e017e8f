import Verif.Lemmas.Keys

/-!
# C01: grid keys never collide on disk
-/

namespace Carmen

/-- C01. Different grid keys, or different row kinds, have different database keys. -/
theorem C01_db_keys_injective (m m' : TypeMarker) (k k' : GridKey) (hk : k.Wf) (hk' : k'.Wf)
    (h : k.dbKey m = k'.dbKey m') : m = m' ∧ k = k' := dbKey_inj hk hk' h

/-- The hypotheses are met by keys with every kind of language suffix. -/
example : (⟨0, 0⟩ : GridKey).Wf ∧ (⟨2 ^ 32 - 1, allLangs⟩ : GridKey).Wf ∧
    (⟨7, 256⟩ : GridKey).Wf := by decide +kernel

/-- C01. No grid key shares its database key with the boundaries row. -/
theorem C01_bounds_row_separate (m : TypeMarker) (k : GridKey) :
    k.dbKey m ≠ Builder.boundsKey := dbKey_ne_bounds m k

/-- C01. Writing under one grid key or kind never changes what a lookup of another
returns. -/
theorem C01_lookup_independent (m m' : TypeMarker) (k k' : GridKey) (hk : k.Wf) (hk' : k'.Wf)
    (hne : (m, k) ≠ (m', k')) (v : Bytes) (db : SMap Bytes Bytes) :
    SMap.find (k.dbKey m) (SMap.insert (k'.dbKey m') v db) = SMap.find (k.dbKey m) db := by
  rw [SMap.find_insert, if_neg]
  intro h
  obtain ⟨h1, h2⟩ := dbKey_inj hk hk' h
  exact hne (by rw [h1, h2])

example : (TypeMarker.singlePhrase, (⟨1, 2⟩ : GridKey)) ≠ (.prefixBin, ⟨1, 2⟩) := by decide

end Carmen
