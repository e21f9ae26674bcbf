import Verif.Spec.Ascii
import Verif.Spec.Real
import Verif.Spec.Write

/-!
# JSON Schema

When a JSON document is a schema, and when a document is valid against a schema, for the keywords `type`, `minimum`,
`properties`, `required`, `additionalProperties`, `items`, `oneOf` and `dependencies`.  Written from the JSON Schema
specifications (validation and core vocabularies); the writer is not mentioned.

Other keywords are annotations (`$schema`, `$id`, `title`, and `format` unless a validator is told otherwise) or are not
considered.
-/

namespace Verif.Spec

open Verif

/-- The versions of JSON Schema that matter: up to draft 2019-09 `items` may be an array of schemas, one for each position, and
`dependencies` (kept for compatibility in 2019-09) makes members depend on each other.  Draft 2020-12 has neither: `items` must
be one schema, and `dependencies` is ignored. -/
inductive Draft where
  | upTo2019 | d2020
  deriving DecidableEq

/-- The document has the type with that name.  A number is an integer if its value is one. -/
def HasType (t : Bytes) (d : JVal) : Prop :=
  (t = asc! "null" ∧ d = .null) ∨ (t = asc! "boolean" ∧ (d = .tru ∨ d = .fls)) ∨
  (t = asc! "string" ∧ ∃ b, d = .str b) ∨ (t = asc! "number" ∧ ∃ x, d = .num x) ∨
  (t = asc! "integer" ∧ ∃ x, ∃ i : Int, d = .num x ∧ NumDenotes x (i : ℚ)) ∨
  (t = asc! "array" ∧ ∃ w es, d = .arr w es) ∨ (t = asc! "object" ∧ ∃ w ms, d = .obj w ms)

/-- The elements if it is an array. -/
def JVal.elems : JVal → List JVal
  | .arr _ es => es.toList
  | _ => []

/-- The members if it is an object. -/
def JVal.mems : JVal → List (Bytes × JVal)
  | .obj _ ms => ms.toList
  | _ => []

/-- The strings among the elements, as written. -/
def JVal.strings (d : JVal) : List Bytes := d.elems.filterMap fun e => match e with | .str b => some b | _ => none

/-- Two names, as written, are the same name. -/
def SameName (a b : Bytes) : Prop := ∃ s, Unesc a s ∧ Unesc b s

/-- The object has a member with that name.  A document that is not an object has all members: the keywords for objects do not
apply. -/
def HasMember (d : JVal) (n : Bytes) : Prop := (∃ w ms, d = .obj w ms) → ∃ p ∈ d.mems, SameName n p.1

/-- The names under the keyword `properties`. -/
def JMems.propNames (ms : JMems) : List Bytes :=
  (ms.toList.filter fun p => p.1 == asc! "properties").flatMap fun p => p.2.mems.map Prod.fst

mutual
/-- The document `d` is valid against the schema `s`. -/
def Valid (D : Draft) (s : JVal) (d : JVal) : Prop :=
  match s with
  | .tru => True
  | .obj _ ms => Keywords D ms.propNames ms d
  | _ => False
/-- The document satisfies all keywords; `ps` are the names under `properties`. -/
def Keywords (D : Draft) (ps : List Bytes) (ms : JMems) (d : JVal) : Prop :=
  match ms with
  | .nil => True
  | .cons _ n _ _ v _ tl =>
    (n = asc! "type" → ∃ t, v = .str t ∧ HasType t d) ∧
    (n = asc! "minimum" → ∀ x m q, v = .num m → d = .num x → ∀ b, NumDenotes m b → NumDenotes x q → b ≤ q) ∧
    (n = asc! "properties" →
      match v with
      | .obj _ pm => Properties D pm d
      | _ => False) ∧
    (n = asc! "required" → ∀ b ∈ v.strings, HasMember d b) ∧
    (n = asc! "additionalProperties" → ∀ p ∈ d.mems, (∀ a ∈ ps, ¬ SameName a p.1) → Valid D v p.2) ∧
    (n = asc! "items" →
      match v with
      | .arr _ es => D = .upTo2019 ∧ Positions D es d.elems
      | v => ∀ e ∈ d.elems, Valid D v e) ∧
    (n = asc! "oneOf" →
      match v with
      | .arr _ es => OneOf D es d
      | _ => False) ∧
    (n = asc! "dependencies" → D = .upTo2019 → ∀ p ∈ v.mems, (∃ q ∈ d.mems, SameName p.1 q.1) →
      ∀ b ∈ p.2.strings, HasMember d b) ∧
    Keywords D ps tl d
/-- Each member of `d` with one of the names is valid against the schema given for it. -/
def Properties (D : Draft) (pm : JMems) (d : JVal) : Prop :=
  match pm with
  | .nil => True
  | .cons _ n _ _ s _ tl => (∀ p ∈ d.mems, SameName n p.1 → Valid D s p.2) ∧ Properties D tl d
/-- Each element is valid against the schema at its position, if there is one. -/
def Positions (D : Draft) (ss : JElems) (es : List JVal) : Prop :=
  match ss with
  | .nil => True
  | .cons _ s _ tl => (∀ e ∈ es.head?, Valid D s e) ∧ Positions D tl es.tail
/-- The document is valid against exactly one of the schemas. -/
def OneOf (D : Draft) (ss : JElems) (d : JVal) : Prop :=
  match ss with
  | .nil => False
  | .cons _ s _ tl => (Valid D s d ∧ NoneOf D tl d) ∨ (¬ Valid D s d ∧ OneOf D tl d)
/-- The document is valid against none of the schemas. -/
def NoneOf (D : Draft) (ss : JElems) (d : JVal) : Prop :=
  match ss with
  | .nil => True
  | .cons _ s _ tl => ¬ Valid D s d ∧ NoneOf D tl d
end

/-- The names of types. -/
def typeNames : List Bytes :=
  [asc! "null", asc! "boolean", asc! "string", asc! "number", asc! "integer", asc! "array", asc! "object"]

/-- All elements are strings, all different. -/
def IsNames (v : JVal) : Prop := ∃ w es, v = .arr w es ∧ (∀ e ∈ es.toList, ∃ b, e = .str b) ∧ v.strings.Nodup

mutual
/-- The document is a schema: the keywords have values as the meta-schema requires. -/
def IsSchema (D : Draft) (s : JVal) : Prop :=
  match s with
  | .tru => True
  | .fls => True
  | .obj _ ms => KeywordsOk D ms
  | _ => False
/-- The values of the keywords. -/
def KeywordsOk (D : Draft) (ms : JMems) : Prop :=
  match ms with
  | .nil => True
  | .cons _ n _ _ v _ tl =>
    (n = asc! "type" → ∃ t ∈ typeNames, v = .str t) ∧
    (n = asc! "minimum" → ∃ x, v = .num x) ∧
    (n = asc! "properties" →
      match v with
      | .obj _ pm => PropertiesOk D pm
      | _ => False) ∧
    (n = asc! "required" → IsNames v) ∧
    (n = asc! "additionalProperties" → IsSchema D v) ∧
    (n = asc! "items" →
      match v with
      | .arr _ es => D = .upTo2019 ∧ es ≠ .nil ∧ SchemasOk D es
      | v => IsSchema D v) ∧
    (n = asc! "oneOf" →
      match v with
      | .arr _ es => es ≠ .nil ∧ SchemasOk D es
      | _ => False) ∧
    (n = asc! "dependencies" → (∃ w ms, v = .obj w ms) ∧ ∀ p ∈ v.mems, IsNames p.2) ∧
    (n = asc! "$id" ∨ n = asc! "$schema" ∨ n = asc! "title" ∨ n = asc! "format" → ∃ b, v = .str b) ∧
    KeywordsOk D tl
/-- All values are schemas. -/
def PropertiesOk (D : Draft) (pm : JMems) : Prop :=
  match pm with
  | .nil => True
  | .cons _ _ _ _ s _ tl => IsSchema D s ∧ PropertiesOk D tl
/-- All elements are schemas. -/
def SchemasOk (D : Draft) (es : JElems) : Prop :=
  match es with
  | .nil => True
  | .cons _ s _ tl => IsSchema D s ∧ SchemasOk D tl
end

end Verif.Spec
