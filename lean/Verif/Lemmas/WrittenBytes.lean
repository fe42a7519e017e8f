import Verif.Lemmas.Finish
import Verif.Spec.Directory
import Verif.Lemmas.Bytes

/-!
# Everything the builder writes is made of bytes
-/

namespace Carmen

open Builder Format

theorem IsBytes.append {a b : Bytes} (ha : IsBytes a) (hb : IsBytes b) : IsBytes (a ++ b) := by
  intro x hx
  rcases List.mem_append.1 hx with h | h
  · exact ha x h
  · exact hb x h

theorem IsBytes.flatMap {α : Type} {l : List α} {f : α → Bytes} (h : ∀ a ∈ l, IsBytes (f a)) :
    IsBytes (l.flatMap f) := by
  intro x hx
  obtain ⟨a, ha, hx⟩ := List.mem_flatMap.1 hx
  exact h a ha x hx

theorem writeFixedVec_bytes {buf : Bytes} (h : IsBytes buf) (items : List ℕ) :
    IsBytes (writeFixedVec buf items).1 :=
  (h.append (encodeVar_lt _)).append (IsBytes.flatMap fun a _ => leBytes_lt 4 a)

theorem writeUniformVec_bytes {buf : Bytes} (h : IsBytes buf) (s : List Coord) :
    IsBytes (writeUniformVec buf s).1 := by
  refine ((h.append (encodeVar_lt _)).append ?_).append (IsBytes.flatMap fun c _ => ?_)
  · intro x hx
    rw [List.mem_singleton.1 hx]
    exact Nat.mod_lt _ (by norm_num)
  · exact (leBytes_lt 4 _).append fun x hx => leBytes_lt 4 _ x (List.mem_of_mem_take hx)

theorem writeVarVec_bytes {buf : Bytes} (h : IsBytes buf) (s : List RelevScore) :
    IsBytes (writeVarVec buf s).1 := by
  refine (h.append (encodeVar_lt _)).append (IsBytes.flatMap fun c _ => ?_)
  intro x hx
  rcases List.mem_cons.1 hx with rfl | hx
  · exact Nat.mod_lt _ (by norm_num)
  · exact encodeVar_lt _ x hx

theorem encIds_bytes {st : EncState} (h : IsBytes st.buf) (ids : List ℕ) :
    IsBytes (encIds st ids).1.buf := by
  unfold encIds
  split
  · exact h
  · exact writeFixedVec_bytes h ids

theorem encCoords_bytes (l : List (ℕ × List ℕ)) :
    ∀ {st : EncState}, IsBytes st.buf → IsBytes (encCoords st l).1.buf := by
  induction l with
  | nil => exact fun h => h
  | cons p t ih => exact fun h => ih (encIds_bytes h _)

theorem encGroups_bytes (o : IterOrder) (l : List (ℕ × HMap ℕ (List ℕ))) :
    ∀ {st : EncState}, IsBytes st.buf → IsBytes (encGroups o st l).1.buf := by
  induction l with
  | nil => exact fun h => h
  | cons p t ih => exact fun h => ih (writeUniformVec_bytes (encCoords_bytes _ h) _)

theorem encodeValue_bytes (o : IterOrder) (e : BuilderEntry) : IsBytes (encodeValue o e) :=
  (writeVarVec_bytes (encGroups_bytes o _ (by intro x hx; cases hx)) _).append (leBytes_lt 4 _)

/-- All values of a database that builders wrote are made of bytes. -/
theorem Spec.Directory.bytes {db : SMap Bytes Bytes} (h : Spec.Directory db) :
    ∀ r ∈ db, IsBytes r.2 := by
  induction h with
  | empty => intro r hr; cases hr
  | @build db h o b hb done hd ih =>
  intro r hr
  have hf := (SMap.mem_iff_find (applyPuts_sorted h.sorted done) (k := r.1) (v := r.2)).1 hr
  rcases mem_of_find_applyPuts hf with hf | hf
  · exact ih r ((SMap.mem_iff_find h.sorted).2 hf)
  · rcases mem_finishPuts_cases (hd.subset hf) with ⟨e, -, he⟩ | ⟨g, -, bin, -, le, -, he⟩ | ⟨he, -⟩
    · rw [Prod.mk.injEq] at he
      rw [he.2]; exact encodeValue_bytes _ _
    · rw [Prod.mk.injEq] at he
      rw [he.2]; exact encodeValue_bytes _ _
    · rw [Prod.mk.injEq] at he
      rw [he.2]; exact IsBytes.flatMap fun a _ => leBytes_lt 4 a

end Carmen
