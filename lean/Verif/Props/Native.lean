import Verif.Spec.Native
import Verif.Props.Builder
import Verif.Props.Collapse

/-!
# The JavaScript bindings (C48, C49)
-/

namespace Carmen
open Builder Spec

/-! ## Language sets -/

theorem castTo_nat {max n : ℕ} : castTo max (.fin n) = min max n := by
  unfold castTo
  simp

theorem castTo_le (max : ℕ) (v : F64) : castTo max v ≤ max := by
  unfold castTo
  split
  · exact Nat.zero_le _
  · split_ifs
    · exact Nat.zero_le _
    · exact le_refl _
  · exact Nat.min_le_left _ _

theorem testBit_one_shiftLeft (i j : ℕ) : (1 <<< i).testBit j = decide (i = j) := by
  rw [Nat.one_shiftLeft, Nat.testBit_two_pow]

/-- The loop sets exactly the bits of the numbers whose integer part is below 128. -/
theorem langLoop_spec (vs : List F64) (out : ℕ) (hout : out < 2 ^ 128) :
    ∃ s, langLoop out (vs.map .num) = some s ∧ s < 2 ^ 128 ∧
      ∀ j, s.testBit j = true ↔
        out.testBit j = true ∨ (j < 128 ∧ ∃ v ∈ vs, castTo usizeMax v = j) := by
  induction vs generalizing out with
  | nil => exact ⟨out, rfl, hout, by simp⟩
  | cons v t ih =>
    simp only [List.map_cons, langLoop, JsValue.number, Option.bind_eq_bind, Option.bind_some]
    split_ifs with h
    · obtain ⟨s, h1, h2, h3⟩ := ih out hout
      refine ⟨s, h1, h2, fun j => ?_⟩
      rw [h3]
      constructor
      · rintro (hj | ⟨hj, w, hw, hc⟩)
        · exact Or.inl hj
        · exact Or.inr ⟨hj, w, List.mem_cons_of_mem _ hw, hc⟩
      · rintro (hj | ⟨hj, w, hw, hc⟩)
        · exact Or.inl hj
        · rcases List.mem_cons.1 hw with rfl | hw
          · omega
          · exact Or.inr ⟨hj, w, hw, hc⟩
    · have hlt : out ||| (1 <<< castTo usizeMax v) < 2 ^ 128 := by
        refine Nat.or_lt_two_pow hout ?_
        rw [Nat.one_shiftLeft]
        exact Nat.pow_lt_pow_right (by decide) (by omega)
      obtain ⟨s, h1, h2, h3⟩ := ih _ hlt
      refine ⟨s, h1, h2, fun j => ?_⟩
      rw [h3, Nat.testBit_or, testBit_one_shiftLeft, Bool.or_eq_true, decide_eq_true_eq]
      constructor
      · rintro ((hj | hj) | ⟨hj, w, hw, hc⟩)
        · exact Or.inl hj
        · exact Or.inr ⟨by omega, v, List.mem_cons_self, hj⟩
        · exact Or.inr ⟨hj, w, List.mem_cons_of_mem _ hw, hc⟩
      · rintro (hj | ⟨hj, w, hw, hc⟩)
        · exact Or.inl (Or.inl hj)
        · rcases List.mem_cons.1 hw with rfl | hw
          · exact Or.inl (Or.inr hc)
          · exact Or.inr ⟨hj, w, hw, hc⟩

theorem and_bit_ne_zero (s j : ℕ) : (s &&& (1 <<< j) != 0) = s.testBit j := by
  rw [Nat.one_shiftLeft, Nat.and_two_pow]
  cases s.testBit j <;> simp

theorem langArrayOf_eq (s : ℕ) : langArrayOf s =
    .arr (((List.range 128).filter fun j => s.testBit j).map fun (j : ℕ) => .num (.fin j)) := by
  unfold langArrayOf
  simp only [and_bit_ne_zero]

/-- The ids in the array `langset_to_langarray` makes. -/
def langIds (s : ℕ) : List ℕ := (List.range 128).filter fun j => s.testBit j

theorem mem_langIds {s j : ℕ} : j ∈ langIds s ↔ j < 128 ∧ s.testBit j = true := by
  unfold langIds
  rw [List.mem_filter, List.mem_range]

/-- **C48.** Any array of numbers is accepted, and comes back as the ascending array, without
repetitions, of the integer parts below 128 (where `castTo` says what Rust makes of numbers that are
not natural numbers). -/
theorem C48_array (vs : List F64) :
    ∃ (s : ℕ) (ids : List ℕ), langSetOf (.arr (vs.map .num)) = some s ∧ s < 2 ^ 128 ∧
      langArrayOf s = .arr (ids.map fun (j : ℕ) => .num (.fin j)) ∧ ids.Pairwise (· < ·) ∧
      ∀ j, j ∈ ids ↔ j < 128 ∧ ∃ v ∈ vs, castTo usizeMax v = j := by
  obtain ⟨s, h1, h2, h3⟩ := langLoop_spec vs 0 (by decide)
  refine ⟨s, langIds s, h1, h2, langArrayOf_eq s, List.pairwise_lt_range.filter _, fun j => ?_⟩
  rw [mem_langIds, h3]
  simp only [Nat.zero_testBit, Bool.false_eq_true, false_or]
  tauto

/-- **C48.** An array of natural numbers comes back as the ascending array, without repetitions, of
those below 128. -/
theorem C48_round_trip (ids : List ℕ) :
    ∃ (s : ℕ) (ids' : List ℕ), langSetOf (.arr (ids.map fun (j : ℕ) => .num (.fin j))) = some s ∧ s < 2 ^ 128 ∧
      langArrayOf s = .arr (ids'.map fun (j : ℕ) => .num (.fin j)) ∧ ids'.Pairwise (· < ·) ∧
      ∀ j, j ∈ ids' ↔ j ∈ ids ∧ j < 128 := by
  obtain ⟨s, ids', h1, h2, h3, h4, h5⟩ := C48_array (ids.map fun (j : ℕ) => .fin j)
  rw [List.map_map] at h1
  refine ⟨s, ids', h1, h2, h3, h4, fun j => ?_⟩
  rw [h5]
  constructor
  · rintro ⟨hj, v, hv, hc⟩
    obtain ⟨i, hi, rfl⟩ := List.mem_map.1 hv
    rw [castTo_nat] at hc
    have : i = j := by
      unfold usizeMax at hc
      omega
    exact ⟨this ▸ hi, hj⟩
  · rintro ⟨hj, hlt⟩
    refine ⟨hlt, _, List.mem_map.2 ⟨j, hj, rfl⟩, ?_⟩
    rw [castTo_nat]
    unfold usizeMax
    omega

/-- **C48.** Every set survives the way to JavaScript and back. -/
theorem C48_set_round_trip (s : ℕ) (hs : s < 2 ^ 128) : langSetOf (langArrayOf s) = some s := by
  obtain ⟨s', ids', h1, h2, h3, h4, h5⟩ := C48_round_trip (langIds s)
  rw [langArrayOf_eq]
  change langSetOf (.arr ((langIds s).map fun (j : ℕ) => .num (.fin j))) = some s
  rw [h1]
  congr 1
  rw [langArrayOf_eq] at h3
  have h6 : langIds s' = ids' := by
    have := JsValue.arr.inj h3
    refine List.map_injective_iff.2 ?_ this
    intro a b hab
    have := F64.fin.inj (JsValue.num.inj hab)
    exact_mod_cast this
  refine Nat.eq_of_testBit_eq fun j => ?_
  by_cases hj : j < 128
  · have := h5 j
    rw [← h6, mem_langIds, mem_langIds] at this
    have h7 : s'.testBit j = true ↔ s.testBit j = true := by tauto
    rcases hb : s.testBit j with _ | _
    · rw [hb] at h7
      simpa using h7
    · rw [hb] at h7
      simpa using h7
  · have hpow : 2 ^ 128 ≤ 2 ^ j := Nat.pow_le_pow_right (by decide) (by omega)
    rw [Nat.testBit_lt_two_pow (lt_of_lt_of_le h2 hpow),
      Nat.testBit_lt_two_pow (lt_of_lt_of_le hs hpow)]

/-- **C48.** `null` and `undefined` are every language; anything else but an array of numbers
throws. -/
theorem C48_other (v : JsValue) :
    langSetOf .null = some (2 ^ 128 - 1) ∧ langSetOf .undefined = some (2 ^ 128 - 1) ∧
    ((langSetOf v).isSome = true ↔
      v = .null ∨ v = .undefined ∨ ∃ vs : List F64, v = .arr (vs.map .num)) := by
  refine ⟨rfl, rfl, ?_⟩
  cases v with
  | undefined => simp [langSetOf]
  | null => simp [langSetOf]
  | arr items =>
    simp only [langSetOf, reduceCtorEq, false_or, JsValue.arr.injEq]
    generalize 0 = out
    induction items generalizing out with
    | nil => exact ⟨fun _ => ⟨[], rfl⟩, fun _ => rfl⟩
    | cons a t ih =>
      constructor
      · intro h
        unfold langLoop at h
        cases a with
        | num x =>
          simp only [JsValue.number, Option.bind_eq_bind, Option.bind_some] at h
          split_ifs at h
          all_goals
            obtain ⟨vs, hvs⟩ := (ih _).1 h
            exact ⟨x :: vs, by rw [hvs]; rfl⟩
        | _ => simp [JsValue.number] at h
      · rintro ⟨vs, hvs⟩
        cases vs with
        | nil => cases hvs
        | cons x vs =>
          obtain ⟨rfl, ht⟩ := List.cons.inj hvs
          unfold langLoop
          simp only [JsValue.number, Option.bind_eq_bind, Option.bind_some]
          split_ifs
          all_goals exact (ih _).2 ⟨vs, ht⟩
  | _ => simp [langSetOf]

/-- **C48**, what the conversion does to numbers that are no ids: a negative number and NaN become
language 0, fractions are cut off, everything from 128 on is dropped. -/
theorem C48_odd_numbers :
    langSetOf (.arr [.num (.fin (-1))]) = some 1 ∧ langSetOf (.arr [.num .nan]) = some 1 ∧
    langSetOf (.arr [.num (.fin (5 / 2))]) = some 4 ∧
    langSetOf (.arr [.num (.inf false), .num (.fin 128)]) = some 0 := by
  refine ⟨?_, ?_, ?_, ?_⟩ <;> decide +kernel

/-- The meaning of a language value is what the bindings compute. -/
theorem langsOf_langSetOf {v : JsValue} {s : ℕ} (h : LangsOf v s) : langSetOf v = some s := by
  cases h with
  | null => rfl
  | undefined => rfl
  | arr ids s hs h =>
    obtain ⟨s', ids', h1, h2, h3, -, h5⟩ := C48_round_trip ids
    rw [h1]
    congr 1
    have h6 : langIds s' = ids' := by
      rw [langArrayOf_eq] at h3
      refine List.map_injective_iff.2 ?_ (JsValue.arr.inj h3)
      intro a b hab
      exact_mod_cast F64.fin.inj (JsValue.num.inj hab)
    refine Nat.eq_of_testBit_eq fun j => ?_
    by_cases hj : j < 128
    · have h7 := h5 j
      rw [← h6, mem_langIds] at h7
      have h8 := h j hj
      rw [Bool.eq_iff_iff]
      tauto
    · have hpow : 2 ^ 128 ≤ 2 ^ j := Nat.pow_le_pow_right (by decide) (by omega)
      rw [Nat.testBit_lt_two_pow (lt_of_lt_of_le h2 hpow),
        Nat.testBit_lt_two_pow (lt_of_lt_of_le hs hpow)]

theorem langSetOf_lt {v : JsValue} {s : ℕ} (h : langSetOf v = some s) : s < 2 ^ 128 := by
  have hv := (C48_other v).2.2.1 (by rw [h]; rfl)
  rcases hv with rfl | rfl | ⟨vs, rfl⟩
  · cases h
    decide
  · cases h
    decide
  · obtain ⟨s', -, h1, h2, -⟩ := C48_array vs
    rw [h] at h1
    exact Option.some.inj h1 ▸ h2

/-! ## The builder -/

theorem keyArg_of_keyObject {v : JsValue} {k : GridKey} (h : KeyObject v k) :
    keyArg v = some k := by
  unfold keyArg
  rw [if_pos h.object, h.phrase, langsOf_langSetOf h.langs]
  simp only [JsValue.number, Option.bind_eq_bind, Option.bind_some, castTo_nat]
  have : min u32Max k.phraseId = k.phraseId := by
    have := h.small
    unfold u32Max
    omega
  rw [this]

theorem keyArg_wf {v : JsValue} {k : GridKey} (h : keyArg v = some k) : k.Wf := by
  unfold keyArg at h
  split_ifs at h
  simp only [Option.bind_eq_bind, Option.bind_eq_some_iff] at h
  obtain ⟨p, -, l, hl, h⟩ := h
  cases h
  refine ⟨?_, langSetOf_lt hl⟩
  have := castTo_le u32Max p
  unfold u32Max at this ⊢
  change castTo (2 ^ 32 - 1) p < 2 ^ 32
  omega

theorem numArg_nat {args : List JsValue} {i n : ℕ} (h : args[i]? = some (.num (.fin n))) :
    numArg args i = some (.fin n) := by
  unfold numArg
  rw [h]
  rfl

theorem bufferArg_of_u32s {buf : List (Fin 256)} {ids : List ℕ} (h : U32s buf ids)
    (rest : List JsValue) : bufferArg (.buffer buf :: rest) = some ids := by
  change some (Store.decodeBounds (buf.map Fin.val)) = some ids
  have h1 := C14_boundaries_roundtrip ids h.1
  rw [h.2]
  congr 1
  refine Eq.trans ?_ h1
  congr 1
  unfold boundsValue
  congr 1
  funext i
  simp only [leBytes, Nat.div_div_eq_div_mul]

theorem decodeBounds_lt : ∀ (b : List (Fin 256)), ∀ n ∈ Store.decodeBounds (b.map Fin.val),
    n < 2 ^ 32
  | a :: b :: c :: d :: t => by
    intro n hn
    simp only [List.map_cons, Store.decodeBounds, List.mem_cons] at hn
    rcases hn with rfl | hn
    · have := a.2
      have := b.2
      have := c.2
      have := d.2
      simp only [ofLe]
      omega
    · exact decodeBounds_lt t n hn
  | [] => by simp [Store.decodeBounds]
  | [_] => by simp [Store.decodeBounds]
  | [_, _] => by simp [Store.decodeBounds]
  | [_, _, _] => by simp [Store.decodeBounds]

theorem renumber_flag (b : Builder) (ids : List ℕ) :
    (match (b.renumber ids).2 with
      | .ok _ => true
      | .error _ => false) = (b.call (.renumber ids)).isSome := by
  unfold Builder.call
  rcases h : b.renumber ids with ⟨b', e | u⟩
  · simp [h]
  · simp [h]

/-- **C49.** Before `finish`, a call acts on the builder, and succeeds or throws, exactly as the native
call it stands for; the database is not touched. -/
theorem C49_meaning {S : Serde} {c : JsCall} {d : Call} (h : Means S c d) (o : IterOrder)
    (b : Builder) (db : SMap Bytes Bytes) :
    JsBuilder.step S o ⟨some b, db⟩ c = some (⟨some (native b d).1, db⟩, (native b d).2) := by
  cases h with
  | insert hk he =>
    simp only [JsBuilder.step, jsInsert, prepForInsert, List.getElem?_cons_zero,
      List.getElem?_cons_succ, Option.bind_eq_bind, Option.bind_some, he, keyArg_of_keyObject hk,
      JsBuilder.modify, native]
  | append hk he =>
    simp only [JsBuilder.step, jsAppend, prepForInsert, List.getElem?_cons_zero,
      List.getElem?_cons_succ, Option.bind_eq_bind, Option.bind_some, he, keyArg_of_keyObject hk,
      JsBuilder.modify, native]
  | @compactAppend v t rest k relev score id hash tiles hk h1 h2 h3 ht =>
    simp only [JsBuilder.step, jsCompactAppend, compactArgs, List.getElem?_cons_zero,
      List.getElem?_cons_succ, Option.bind_eq_bind, Option.bind_some, ht, keyArg_of_keyObject hk,
      JsBuilder.modify, native, numArg, JsValue.number, castTo_nat]
    have e1 : min 255 score = score := by omega
    have e2 : min u32Max id = id := by
      unfold u32Max
      omega
    have e3 : min 255 hash = hash := by omega
    rw [e1, e2, e3]
  | renumber h =>
    simp only [JsBuilder.step, jsRenumber, bufferArg_of_u32s h, JsBuilder.modify, native]
    exact congrArg (fun f => some (_, f)) (renumber_flag b _)
  | loadBinBoundaries h =>
    simp only [JsBuilder.step, jsLoadBinBoundaries, bufferArg_of_u32s h, JsBuilder.modify, native]

theorem prepForInsert_wf {S : Serde} {args : List JsValue} {k : GridKey} {es : List GridEntry}
    (h : prepForInsert S args = some (k, es)) : k.Wf ∧ ∀ e ∈ es, e.Wf := by
  unfold prepForInsert at h
  simp only [Option.bind_eq_bind, Option.bind_eq_some_iff] at h
  obtain ⟨v, -, e, -, es', he, k', hk, h⟩ := h
  cases h
  exact ⟨keyArg_wf hk, S.entries_wf _ _ he⟩

theorem bufferArg_lt {args : List JsValue} {ids : List ℕ} (h : bufferArg args = some ids) :
    ∀ n ∈ ids, n < 2 ^ 32 := by
  unfold bufferArg at h
  split at h
  · cases h
    exact decodeBounds_lt _
  · cases h

/-- **C49.** Whatever its arguments, a call before `finish` throws and changes nothing or acts as one
native call with arguments the Rust types allow. -/
theorem C49_any_arguments (S : Serde) (o : IterOrder) (c : JsCall) (hc : NotFinish c) :
    (∀ b db, JsBuilder.step S o ⟨some b, db⟩ c = some (⟨some b, db⟩, false)) ∨
    ∃ d : Call, d.Wf ∧ ∀ b db,
      JsBuilder.step S o ⟨some b, db⟩ c = some (⟨some (native b d).1, db⟩, (native b d).2) := by
  cases c with
  | insert args =>
    rcases h : prepForInsert S args with _ | ⟨k, es⟩
    · left
      intro b db
      simp only [JsBuilder.step, jsInsert, h]
    · right
      refine ⟨.insert k es, prepForInsert_wf h, fun b db => ?_⟩
      simp only [JsBuilder.step, jsInsert, h, JsBuilder.modify, native]
  | append args =>
    rcases h : prepForInsert S args with _ | ⟨k, es⟩
    · left
      intro b db
      simp only [JsBuilder.step, jsAppend, h]
    · right
      refine ⟨.append k es, prepForInsert_wf h, fun b db => ?_⟩
      simp only [JsBuilder.step, jsAppend, h, JsBuilder.modify, native]
  | compactAppend args =>
    rcases h : compactArgs S args with _ | ⟨k, relev, score, id, hash, tiles⟩
    · left
      intro b db
      simp only [JsBuilder.step, jsCompactAppend, h]
    · right
      refine ⟨.compactAppend k relev score id hash tiles, ?_, fun b db => ?_⟩
      · unfold compactArgs at h
        simp only [Option.bind_eq_bind, Option.bind_eq_some_iff] at h
        obtain ⟨v, -, k', hk, r, -, s, -, i, -, hh, -, t, -, ts, ht, h⟩ := h
        cases h
        have h1 := castTo_le 255 s
        have h2 := castTo_le u32Max i
        have h3 := castTo_le 255 hh
        have h4 : u32Max < 2 ^ 32 := by decide
        exact ⟨keyArg_wf hk, by omega, by omega, by omega, S.tiles_wf _ _ ht⟩
      · simp only [JsBuilder.step, jsCompactAppend, h, JsBuilder.modify, native]
  | renumber args =>
    rcases h : bufferArg args with _ | ids
    · left
      intro b db
      simp only [JsBuilder.step, jsRenumber, h]
    · right
      refine ⟨.renumber ids, bufferArg_lt h, fun b db => ?_⟩
      simp only [JsBuilder.step, jsRenumber, h, JsBuilder.modify, native]
      exact congrArg (fun f => some (_, f)) (renumber_flag b _)
  | loadBinBoundaries args =>
    rcases h : bufferArg args with _ | ids
    · left
      intro b db
      simp only [JsBuilder.step, jsLoadBinBoundaries, h]
    · right
      refine ⟨.loadBounds ids, bufferArg_lt h, fun b db => ?_⟩
      simp only [JsBuilder.step, jsLoadBinBoundaries, h, JsBuilder.modify, native]
  | finish f => exact hc.elim

/-- **C49.** Every sequence of calls before `finish` returns, leaves the database alone, and acts on
the builder as a sequence of native calls (the same whatever the builder holds), some of the
JavaScript calls having only thrown. -/
theorem C49_before (S : Serde) (o : IterOrder) (cs : List JsCall) (hc : ∀ c ∈ cs, NotFinish c) :
    ∃ ds : List (Option Call), ds.length = cs.length ∧ (∀ d, some d ∈ ds → d.Wf) ∧
      ∀ b db, JsBuilder.run S o ⟨some b, db⟩ cs =
        some (⟨some (nativeRun b ds).1, db⟩, (nativeRun b ds).2) := by
  induction cs with
  | nil => exact ⟨[], rfl, by simp, fun b db => rfl⟩
  | cons c t ih =>
    obtain ⟨ds, h1, h2, h3⟩ := ih fun c' h' => hc c' (List.mem_cons_of_mem _ h')
    rcases C49_any_arguments S o c (hc c List.mem_cons_self) with h | ⟨d, hd, h⟩
    · refine ⟨none :: ds, by simp [h1], by simpa using h2, fun b db => ?_⟩
      simp only [JsBuilder.run, h, h3, Option.bind_eq_bind, Option.bind_some, nativeRun]
    · refine ⟨some d :: ds, by simp [h1], ?_, fun b db => ?_⟩
      · intro d' hd'
        rcases List.mem_cons.1 hd' with h' | h'
        · exact Option.some.inj h' ▸ hd
        · exact h2 d' h'
      · simp only [JsBuilder.run, h, h3, Option.bind_eq_bind, Option.bind_some, nativeRun]

/-- **C49.** Calls with a meaning act one after the other as what they mean. -/
theorem C49_same_as_native {S : Serde} {cs : List JsCall} {ds : List Call}
    (h : List.Forall₂ (Means S) cs ds) (o : IterOrder) (b : Builder) (db : SMap Bytes Bytes) :
    JsBuilder.run S o ⟨some b, db⟩ cs =
      some (⟨some (nativeRun b (ds.map some)).1, db⟩, (nativeRun b (ds.map some)).2) := by
  induction h generalizing b with
  | nil => rfl
  | cons h1 _ ih =>
    simp only [JsBuilder.run, C49_meaning h1, ih, Option.bind_eq_bind, Option.bind_some, nativeRun,
      List.map_cons]

theorem native_call {b b' : Builder} {d : Call} (h : b.call d = some b') :
    native b d = (b', true) := by
  cases d with
  | renumber ids =>
    have h' := h
    simp only [Builder.call] at h'
    simp only [native]
    rw [h]
    rcases hr : b.renumber ids with ⟨b1, e | u⟩
    · simp [hr] at h'
    · simp [hr] at h'
      simp [h']
  | _ => cases h; rfl

theorem native_call_true {b : Builder} {d : Call} (h : (native b d).2 = true) :
    b.call d = some (native b d).1 := by
  rcases hc : b.call d with _ | b'
  · cases d with
    | renumber ids =>
      simp only [native] at h
      rw [hc] at h
      cases h
    | _ => cases hc
  · rw [native_call hc]

/-- **C49.** If no call throws, the builder is what the native history makes of it. -/
theorem C49_history {b : Builder} {ds : List Call}
    (h : ∀ ok ∈ (nativeRun b (ds.map some)).2, ok = true) :
    b.runFrom ds = some (nativeRun b (ds.map some)).1 := by
  induction ds generalizing b with
  | nil => rfl
  | cons d t ih =>
    simp only [List.map_cons, nativeRun, List.forall_mem_cons] at h ⊢
    simp only [Builder.runFrom, native_call_true h.1, Option.bind_some]
    exact ih h.2

/-- **C49.** Whatever becomes of `finish`, the builder is gone. If it returns, the database is the one
the native builder writes; if it throws, only a first part of the writes has been done. If the
database works it fails to return only when the native builder does. -/
theorem C49_finish (S : Serde) (o : IterOrder) (fault : DbFault) (b : Builder)
    (db : SMap Bytes Bytes) :
    (∀ st ok, JsBuilder.step S o ⟨some b, db⟩ (.finish fault) = some (st, ok) →
      st.inner = none ∧ (ok = true → finishInto o db b = some st.db) ∧
      (ok = false → ∃ n, st.db = applyPuts db ((finishPuts o b).1.take n))) ∧
    JsBuilder.step S o ⟨some b, db⟩ (.finish .none) =
      (finishInto o db b).map fun db' => (⟨none, db'⟩, true) := by
  refine ⟨fun st ok h => ?_, rfl⟩
  simp only [JsBuilder.step, jsFinish] at h
  cases fault with
  | none =>
    obtain ⟨db', h1, h2⟩ := Option.map_eq_some_iff.1 h
    cases h2
    exact ⟨rfl, fun _ => h1, by simp⟩
  | onOpen =>
    cases h
    exact ⟨rfl, by simp, fun _ => ⟨0, rfl⟩⟩
  | onPut n =>
    simp only at h
    split_ifs at h
    · cases h
      exact ⟨rfl, by simp, fun _ => ⟨n, rfl⟩⟩
    · obtain ⟨db', h1, h2⟩ := Option.map_eq_some_iff.1 h
      cases h2
      exact ⟨rfl, fun _ => h1, by simp⟩

theorem step_none (S : Serde) (o : IterOrder) (c : JsCall) (db : SMap Bytes Bytes) :
    JsBuilder.step S o ⟨none, db⟩ c = some (⟨none, db⟩, false) := by
  cases c with
  | insert args =>
    simp only [JsBuilder.step, jsInsert]
    split <;> rfl
  | append args =>
    simp only [JsBuilder.step, jsAppend]
    split <;> rfl
  | compactAppend args =>
    simp only [JsBuilder.step, jsCompactAppend]
    split <;> rfl
  | renumber args =>
    simp only [JsBuilder.step, jsRenumber]
    split <;> rfl
  | loadBinBoundaries args =>
    simp only [JsBuilder.step, jsLoadBinBoundaries]
    split <;> rfl
  | finish f => rfl

theorem run_none (S : Serde) (o : IterOrder) (cs : List JsCall) (db : SMap Bytes Bytes) :
    JsBuilder.run S o ⟨none, db⟩ cs = some (⟨none, db⟩, List.replicate cs.length false) := by
  induction cs with
  | nil => rfl
  | cons c t ih =>
    simp only [JsBuilder.run, step_none, ih, Option.bind_eq_bind, Option.bind_some,
      List.length_cons, List.replicate_succ]

theorem step_finish_none {S : Serde} {o : IterOrder} {st st' : JsBuilder} {f : DbFault} {ok : Bool}
    (h : JsBuilder.step S o st (.finish f) = some (st', ok)) : st'.inner = none := by
  rcases st with ⟨b | b, db⟩
  · rw [step_none] at h
    cases h
    rfl
  · exact ((C49_finish S o f b db).1 st' ok h).1

theorem run_append (S : Serde) (o : IterOrder) (st : JsBuilder) (cs cs' : List JsCall) :
    JsBuilder.run S o st (cs ++ cs') = (JsBuilder.run S o st cs).bind fun r =>
      (JsBuilder.run S o r.1 cs').map fun r' => (r'.1, r.2 ++ r'.2) := by
  induction cs generalizing st with
  | nil => simp [JsBuilder.run]
  | cons c t ih =>
    simp only [List.cons_append, JsBuilder.run, Option.bind_eq_bind, Option.bind_assoc, ih]
    congr 1
    funext r
    rcases JsBuilder.run S o r.1 t with _ | r1
    · rfl
    · simp only [Option.bind_some]
      rcases JsBuilder.run S o r1.1 cs' with _ | r2 <;> rfl

/-- **C49.** Once `finish` has been called and has come back, by returning or by throwing, every later
call throws, including `finish`, and the database stays as it is. -/
theorem C49_after_finish (S : Serde) (o : IterOrder) (st st' : JsBuilder) (before : List JsCall)
    (fault : DbFault) (oks : List Bool)
    (h : JsBuilder.run S o st (before ++ [.finish fault]) = some (st', oks))
    (after : List JsCall) :
    JsBuilder.run S o st (before ++ .finish fault :: after) =
      some (st', oks ++ List.replicate after.length false) := by
  have hsplit : before ++ JsCall.finish fault :: after =
      (before ++ [.finish fault]) ++ after := by simp
  have hnone : st'.inner = none := by
    rw [run_append] at h
    rcases hr : JsBuilder.run S o st before with _ | r
    · rw [hr] at h
      cases h
    · rw [hr, Option.bind_some] at h
      simp only [JsBuilder.run, Option.bind_eq_bind] at h
      rcases hs : JsBuilder.step S o r.1 (.finish fault) with _ | ⟨st2, ok⟩
      · rw [hs] at h
        cases h
      · rw [hs] at h
        cases h
        exact step_finish_none hs
  rw [hsplit, run_append, h, Option.bind_some]
  obtain ⟨inner, db⟩ := st'
  cases hnone
  rw [run_none]
  rfl

end Carmen
