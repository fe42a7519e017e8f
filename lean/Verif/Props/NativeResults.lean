import Verif.Model.NativeResults
import Verif.Props.Copy
import Verif.Props.Tools

/-!
# C74: what JavaScript gets is what Rust returned
-/

namespace Carmen
open Format Spec Builder Store

/-- The numbers of a result are of the Rust types they have (common.rs:398-415). -/
structure Spec.CoalesceEntry.Fits (e : CoalesceEntry) : Prop where
  entry : e.entry.Wf
  idx : e.idx < 2 ^ 16
  tmpId : e.tmpId < 2 ^ 32
  mask : e.mask < 2 ^ 32
  phrasematchId : e.phrasematchId < 2 ^ 32

/-- The numbers of a context are of the Rust types they have. -/
def Spec.Context.Fits (c : Context) : Prop :=
  c.mask < 2 ^ 32 ∧ ∀ e ∈ c.entries, CoalesceEntry.Fits e

/-- neon_serde reads the entries it has written. -/
def Spec.ReadsEntries (S : Serde) : Prop :=
  ∀ es : List GridEntry, (∀ e ∈ es, e.Wf) → S.entries (entriesValue es) = some es

theorem intValue_eq {n : ℕ} (h : n < 2 ^ 32) : intValue n = .num (.fin n) := by
  unfold intValue
  rw [F64.ofNat_eq (by omega)]

theorem intValue_inj {n m : ℕ} (hn : n < 2 ^ 32) (hm : m < 2 ^ 32)
    (h : intValue n = intValue m) : n = m := by
  rw [intValue_eq hn, intValue_eq hm] at h
  injection h with h
  injection h with h
  exact_mod_cast h

theorem entryValue_inj {e e' : GridEntry} (he : e.Wf) (he' : e'.Wf)
    (h : entryValue e = entryValue e') : e = e' := by
  obtain ⟨h1, h2, h3, h4, h5⟩ := he
  obtain ⟨h1', h2', h3', h4', h5'⟩ := he'
  unfold entryValue at h
  simp only [JsValue.obj.injEq, List.cons.injEq, Prod.mk.injEq, true_and, and_true,
    JsValue.num.injEq] at h
  obtain ⟨r, s, x, y, i, p⟩ := h
  have s := intValue_inj (by omega) (by omega) s
  have x := intValue_inj (by omega) (by omega) x
  have y := intValue_inj (by omega) (by omega) y
  have i := intValue_inj (by omega) (by omega) i
  have p := intValue_inj (by omega) (by omega) p
  cases e
  cases e'
  simp_all

theorem map_inj_of {α β : Type} {f : α → β} {P : α → Prop}
    (hf : ∀ a b, P a → P b → f a = f b → a = b) : ∀ {l l' : List α}, (∀ a ∈ l, P a) →
      (∀ a ∈ l', P a) → l.map f = l'.map f → l = l'
  | [], [], _, _, _ => rfl
  | [], _ :: _, _, _, h => by simp at h
  | _ :: _, [], _, _, h => by simp at h
  | a :: l, b :: l', h1, h2, h => by
    simp only [List.map_cons, List.cons.injEq] at h
    rw [hf a b (h1 a (by simp)) (h2 b (by simp)) h.1,
      map_inj_of hf (fun x hx => h1 x (by simp [hx])) (fun x hx => h2 x (by simp [hx])) h.2]

theorem coalesceEntryValue_inj {e e' : CoalesceEntry} (he : CoalesceEntry.Fits e)
    (he' : CoalesceEntry.Fits e') (h : coalesceEntryValue e = coalesceEntryValue e') : e = e' := by
  have a1 := he.idx
  have a2 := he'.idx
  unfold coalesceEntryValue at h
  simp only [JsValue.obj.injEq, List.cons.injEq, Prod.mk.injEq, true_and, and_true,
    JsValue.num.injEq, JsValue.bool.injEq] at h
  obtain ⟨g, m, i, t, k, d, s, p⟩ := h
  have g := entryValue_inj he.entry he'.entry g
  have i := intValue_inj (by omega) (by omega) i
  have t := intValue_inj he.tmpId he'.tmpId t
  have k := intValue_inj he.mask he'.mask k
  have p := intValue_inj he.phrasematchId he'.phrasematchId p
  cases e
  cases e'
  simp_all

theorem contextValue_inj {c c' : Context} (hc : Context.Fits c) (hc' : Context.Fits c')
    (h : contextValue c = contextValue c') : c = c' := by
  unfold contextValue at h
  simp only [JsValue.obj.injEq, List.cons.injEq, Prod.mk.injEq, true_and, and_true,
    JsValue.num.injEq, JsValue.arr.injEq] at h
  obtain ⟨m, r, e⟩ := h
  have m := intValue_inj hc.1 hc'.1 m
  have e := map_inj_of (fun a b => coalesceEntryValue_inj (e := a) (e' := b)) hc.2 hc'.2 e
  cases c
  cases c'
  simp_all

/-- **C74**: results that differ look different to JavaScript. -/
theorem C74_nothing_lost (out out' : List Context) (h : ∀ c ∈ out, Context.Fits c)
    (h' : ∀ c ∈ out', Context.Fits c) (he : resultsValue out = resultsValue out') : out = out' :=
  map_inj_of (fun _ _ => contextValue_inj) h h' (JsValue.arr.inj he)

/-- **C74**: what JavaScript reads from a context and from its entries. -/
theorem C74_fields (c : Context) (hc : Context.Fits c) :
    (contextValue c).prop "mask" = .num (.fin c.mask) ∧
    (contextValue c).prop "relev" = .num c.relev ∧
    ∃ items, (contextValue c).prop "entries" = .arr items ∧
      List.Forall₂ (fun (e : CoalesceEntry) v =>
        v.prop "matches_language" = .bool e.matchesLanguage ∧
        v.prop "idx" = .num (.fin e.idx) ∧ v.prop "tmp_id" = .num (.fin e.tmpId) ∧
        v.prop "mask" = .num (.fin e.mask) ∧ v.prop "distance" = .num e.distance ∧
        v.prop "scoredist" = .num e.scoredist ∧
        v.prop "phrasematch_id" = .num (.fin e.phrasematchId) ∧
        (v.prop "grid_entry").prop "relev" = .num e.entry.relev ∧
        (v.prop "grid_entry").prop "score" = .num (.fin e.entry.score) ∧
        (v.prop "grid_entry").prop "x" = .num (.fin e.entry.x) ∧
        (v.prop "grid_entry").prop "y" = .num (.fin e.entry.y) ∧
        (v.prop "grid_entry").prop "id" = .num (.fin e.entry.id) ∧
        (v.prop "grid_entry").prop "source_phrase_hash" = .num (.fin e.entry.hash))
        c.entries items := by
  refine ⟨?_, ?_, c.entries.map coalesceEntryValue, ?_, ?_⟩
  · simp [contextValue, JsValue.prop, intValue_eq hc.1]
  · simp [contextValue, JsValue.prop]
  · simp [contextValue, JsValue.prop]
  · refine List.forall₂_map_right_iff.2 (List.forall₂_same.2 fun e he => ?_)
    have hf := hc.2 e he
    obtain ⟨h1, h2, h3, h4, h5⟩ := hf.entry
    have h6 := hf.idx
    have i1 := intValue_eq (n := e.entry.score) (by omega)
    have i2 := intValue_eq (n := e.entry.x) (by omega)
    have i3 := intValue_eq (n := e.entry.y) (by omega)
    have i4 := intValue_eq (n := e.entry.id) (by omega)
    have i5 := intValue_eq (n := e.entry.hash) (by omega)
    have i6 := intValue_eq (n := e.idx) (by omega)
    simp [coalesceEntryValue, entryValue, JsValue.prop, i1, i2, i3, i4, i5, i6,
      intValue_eq hf.tmpId, intValue_eq hf.mask, intValue_eq hf.phrasematchId]

/-- **C74**: what `get` returns for a key is `undefined` if nothing is stored for it, and otherwise an
array of objects with the fields of the entries stored, best first. -/
theorem C74_get (o : IterOrder) (cs : List Call) (hc : ∀ c ∈ cs, c.Wf)
    (hscore : ∀ c ∈ cs, ∀ e ∈ c.entries, e.score ≤ 15)
    (b : Builder) (hrun : Builder.run cs = some b)
    (db : SMap Bytes Bytes) (hfin : finish o b = some db) (hsmall : SmallRecords db)
    (s : Store) (hs : s.db = db) (v : JsValue) (k : GridKey) (hv : KeyObject v k)
    (rest : List JsValue) :
    (Content.run cs k = none → jsGetValue s (v :: rest) = some (.returned .undefined)) ∧
    ∀ es, Content.run cs k = some es →
      ∃ items, jsGetValue s (v :: rest) = some (.returned (.arr items)) ∧
        List.Forall₂ (fun (e : GridEntry) v =>
          v.prop "relev" = .num e.relev ∧ v.prop "score" = .num (.fin e.score) ∧
          v.prop "x" = .num (.fin e.x) ∧ v.prop "y" = .num (.fin e.y) ∧
          v.prop "id" = .num (.fin e.id) ∧ v.prop "source_phrase_hash" = .num (.fin e.hash))
          (readBack (es.map stored)) items := by
  have hget := C06_history_is_map_of_sets o cs hc hscore b hrun db hfin hsmall s hs k
    (keyObject_wf hv)
  unfold jsGetValue
  rw [jsGet_keyObject hv, hget]
  constructor
  · intro hn
    rw [hn]
    rfl
  · intro es hes
    rw [hes]
    refine ⟨_, rfl, List.forall₂_map_right_iff.2 (List.forall₂_same.2 fun e he => ?_)⟩
    unfold readBack at he
    rw [List.mem_insertionSort, List.mem_dedup, List.mem_map] at he
    obtain ⟨e0, he0, rfl⟩ := he
    obtain ⟨c, hcc, hvc⟩ := content_entries hes e0 he0
    obtain ⟨h1, h2, h3, h4, h5⟩ := stored_wf (call_entries_wf (hc c hcc) e0 hvc)
    have i1 := intValue_eq (n := (stored e0).score) (by omega)
    have i2 := intValue_eq (n := (stored e0).x) (by omega)
    have i3 := intValue_eq (n := (stored e0).y) (by omega)
    have i4 := intValue_eq (n := (stored e0).id) (by omega)
    have i5 := intValue_eq (n := (stored e0).hash) (by omega)
    simp [entryValue, JsValue.prop, i1, i2, i3, i4, i5]

/-- A key with entries and a key without any. -/
example : (Content.run exampleCalls ⟨3, 1⟩).isSome ∧ Content.run exampleCalls ⟨9, 1⟩ = none ∧
    KeyObject (keyObject ⟨3, 1⟩) ⟨3, 1⟩ ∧ KeyObject (keyObject ⟨9, 1⟩) ⟨9, 1⟩ :=
  ⟨by decide +kernel, by decide +kernel, keyObject_means ⟨by decide, by decide⟩,
    keyObject_means ⟨by decide, by decide⟩⟩

/-! ## A script that copies a store -/

/-- The calls a script makes that walks the key iterator and appends, for every key, what `get` returns
for it: `for (const key of store.keys()) builder.append(key, store.get(key))`. The number bounds the
turns; `none`: something panics or throws. -/
def Spec.copyScript (s : Store) : ℕ → List (Bytes × Bytes) → Option (List JsCall)
  | 0, _ => some []
  | n + 1, rows => do
    let r ← jsNext rows
    match r.2.prop "done" with
    | .bool false =>
      match ← jsGetValue s [r.2.prop "value"] with
      | .returned v =>
        let t ← copyScript s n r.1
        some (.append [r.2.prop "value", v] :: t)
      | .threw => none
    | _ => some []

theorem copyScript_eq {s : Store} : ∀ (rows : List (Bytes × Bytes))
    (l : List (GridKey × List GridEntry)) (n : ℕ), rows.length ≤ n →
    rows.mapM (fun r => Store.decodeKey r.1) = some (l.map Prod.fst) →
    (∀ p ∈ l, p.1.Wf ∧ s.get p.1 = some (some p.2)) →
    copyScript s n rows = some (l.map fun p => .append [keyObject p.1, entriesValue p.2])
  | [], l, n, _, hk, _ => by
    have : l = [] := by
      have h : some ([] : List GridKey) = some (l.map Prod.fst) := hk
      simpa using (Option.some.inj h).symm
    subst this
    cases n <;> simp [copyScript, jsNext, JsValue.prop]
  | r :: rows, l, n, hn, hk, hl => by
    cases n with
    | zero => simp at hn
    | succ n =>
      rw [List.mapM_cons] at hk
      simp only [Option.bind_eq_bind, Option.bind_eq_some_iff] at hk
      obtain ⟨k, hk1, ks, hk2, hk3⟩ := hk
      cases l with
      | nil => simp at hk3
      | cons p l =>
        simp only [List.map_cons, Option.pure_def, Option.some.injEq, List.cons.injEq] at hk3
        obtain ⟨rfl, rfl⟩ := hk3
        obtain ⟨hw, hg⟩ := hl p (by simp)
        have ih := copyScript_eq rows l n (by simpa using hn) hk2
          fun q hq => hl q (by simp [hq])
        have h1 : jsNext (r :: rows) =
            some (rows, .obj [("done", .bool false), ("value", keyObject p.1)]) := by
          simp [jsNext, hk1]
        have h2 : jsGetValue s [keyObject p.1] = some (.returned (entriesValue p.2)) := by
          unfold jsGetValue
          rw [jsGet_keyObject (keyObject_means hw), hg]
          rfl
        rw [copyScript]
        simp only [h1, Option.bind_eq_bind, Option.bind_some]
        have h3 : JsValue.prop "done" (.obj [("done", .bool false), ("value", keyObject p.1)]) =
          .bool false := by simp [JsValue.prop]
        have h4 : JsValue.prop "value" (.obj [("done", .bool false), ("value", keyObject p.1)]) =
          keyObject p.1 := by simp [JsValue.prop]
        simp only [h3, h4, h2, Option.bind_some, ih, List.map_cons]

/-- **C74**: the script that appends for every key what `get` returns for it, then loads the
boundaries and calls `finish`, writes the same database again, byte for byte, and no call throws. -/
theorem C74_copy_script (S : Serde) (hS : ReadsEntries S) (o o' : IterOrder) (cs : List Call)
    (hc : ∀ c ∈ cs, c.Wf) (hn : ∀ c ∈ cs, c.NonEmpty)
    (hscore : ∀ c ∈ cs, ∀ e ∈ c.entries, e.score ≤ 15)
    (b : Builder) (hrun : Builder.run cs = some b) (hasc : b.bounds.Pairwise (· < ·))
    (db : SMap Bytes Bytes) (hfin : finish o b = some db) (hsmall : SmallRecords db)
    (zoom typeId : ℕ) (radius : F64) (bboxes : List BBox) (maxScore : F64) (s : Store)
    (hs : s = Store.openWith db zoom typeId radius bboxes maxScore) :
    ∃ calls, (∀ n, (jsKeys s).length ≤ n → copyScript s n (jsKeys s) = some calls) ∧
      calls.length = (jsKeys s).length ∧
      ∀ bounds : List ℕ, bounds.Pairwise (· < ·) → (∀ x, x ∈ bounds ↔ x ∈ s.bounds) →
        JsBuilder.run S o' (.new [])
            (calls ++ [.loadBinBoundaries [bufferOf bounds], .finish .none]) =
          some (⟨none, db⟩, List.replicate (calls.length + 2) true) := by
  have hd := Directory.finish (refines_run hc hrun).wf hfin
  have hdb : s.db = db := by rw [hs]; rfl
  obtain ⟨h1, h2⟩ := laid_iter (hd.laidOut hsmall) hdb
  obtain ⟨l, hl1, -, -, hl2, -⟩ := C72_listing db hd hsmall s hdb
  rw [h1] at hl1
  cases hl1
  have hex := listing_exact hd hsmall hdb h1
  obtain ⟨l', hi, -, -, hcopy⟩ := C71_from_js S o o' cs hc hn hscore b hrun hasc db hfin hsmall zoom
    typeId radius bboxes maxScore s hs
  rw [h1] at hi
  cases hi
  refine ⟨_, fun n hlen => copyScript_eq _ _ n hlen h2 hl2, by simp [jsKeys], ?_⟩
  intro bounds hb hm
  refine hcopy _ bounds ?_ hb hm
  refine List.forall₂_map_left_iff.2 (List.forall₂_same.2 fun p hp => ?_)
  exact ⟨_, hS _ fun e he => ((hex p hp).2 e he).1, Or.inr rfl⟩

end Carmen
