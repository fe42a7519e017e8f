import Verif.Model.Native
import Verif.Spec.History

/-!
# What JavaScript calls mean
-/

namespace Carmen.Spec

/-- The set of languages a JavaScript value stands for: an array of ids stands for those below 128,
`null` and `undefined` for all languages. -/
inductive LangsOf : JsValue → ℕ → Prop
  | null : LangsOf .null (2 ^ 128 - 1)
  | undefined : LangsOf .undefined (2 ^ 128 - 1)
  | arr (ids : List ℕ) (s : ℕ) (hs : s < 2 ^ 128)
      (h : ∀ i < 128, s.testBit i = true ↔ i ∈ ids) :
      LangsOf (.arr (ids.map fun (i : ℕ) => .num (.fin i))) s

/-- The key a JavaScript object stands for. -/
structure KeyObject (v : JsValue) (k : GridKey) : Prop where
  object : v.isObject = true
  phrase : v.prop "phrase_id" = .num (.fin k.phraseId)
  small : k.phraseId < 2 ^ 32
  langs : LangsOf (v.prop "lang_set") k.langSet

/-- The bytes of a list of 32-bit numbers, each written with its lowest byte first. -/
def U32s (buf : List (Fin 256)) (ids : List ℕ) : Prop :=
  (∀ i ∈ ids, i < 2 ^ 32) ∧
  buf.map Fin.val = ids.flatMap fun i =>
    [i % 256, i / 256 % 256, i / 65536 % 256, i / 16777216 % 256]

/-- The native call a JavaScript call stands for. Numbers are in range; entries and tiles are what
`neon_serde` reads. Further arguments are ignored. -/
inductive Means (S : Serde) : JsCall → Call → Prop
  | insert {v e : JsValue} {rest : List JsValue} {k : GridKey} {es : List GridEntry}
      (hk : KeyObject v k) (he : S.entries e = some es) :
      Means S (.insert (v :: e :: rest)) (.insert k es)
  | append {v e : JsValue} {rest : List JsValue} {k : GridKey} {es : List GridEntry}
      (hk : KeyObject v k) (he : S.entries e = some es) :
      Means S (.append (v :: e :: rest)) (.append k es)
  | compactAppend {v t : JsValue} {rest : List JsValue} {k : GridKey} {relev : F64}
      {score id hash : ℕ} {tiles : List (ℕ × ℕ)} (hk : KeyObject v k) (h1 : score < 2 ^ 8)
      (h2 : id < 2 ^ 32) (h3 : hash < 2 ^ 8) (ht : S.tiles t = some tiles) :
      Means S (.compactAppend (v :: .num relev :: .num (.fin score) :: .num (.fin id) ::
        .num (.fin hash) :: t :: rest)) (.compactAppend k relev score id hash tiles)
  | renumber {buf : List (Fin 256)} {rest : List JsValue} {ids : List ℕ} (h : U32s buf ids) :
      Means S (.renumber (.buffer buf :: rest)) (.renumber ids)
  | loadBinBoundaries {buf : List (Fin 256)} {rest : List JsValue} {ids : List ℕ}
      (h : U32s buf ids) :
      Means S (.loadBinBoundaries (.buffer buf :: rest)) (.loadBounds ids)

/-- What a native call does to a builder, also when it fails, and whether it returns an error. -/
def native (b : Builder) : Call → Builder × Bool
  | .insert k es => (b.insert k es, true)
  | .append k es => (b.append k es, true)
  | .compactAppend k relev score id hash tiles => (b.compactAppend k relev score id hash tiles, true)
  | .renumber map => ((b.renumber map).1, (b.call (.renumber map)).isSome)
  | .loadBounds bounds => (b.loadBinBoundaries bounds, true)

/-- What native calls do one after the other; `none` is a call that only throws. -/
def nativeRun : Builder → List (Option Call) → Builder × List Bool
  | b, [] => (b, [])
  | b, none :: t => ((nativeRun b t).1, false :: (nativeRun b t).2)
  | b, some c :: t =>
    ((nativeRun (native b c).1 t).1, (native b c).2 :: (nativeRun (native b c).1 t).2)

/-- A call that is not `finish`. -/
def NotFinish : JsCall → Prop
  | .finish _ => False
  | _ => True

end Carmen.Spec
