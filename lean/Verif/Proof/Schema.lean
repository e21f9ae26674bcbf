import Verif.Model.Schema
import Verif.Proof.Write
import Verif.Spec.SchemaTy

/-!
# The schema that is written, as a JSON document
-/

namespace Verif

open Spec

/-- The text of the members without a comma in front. -/
def JMems.stext : JMems → Bytes
  | .nil => []
  | .cons pre n pc qc v post tl =>
    pre ++ (0x22 :: (n ++ (0x22 :: (pc ++ (0x3A :: (qc ++ (v.text ++ (post ++ tl.text))))))))

/-- The text of the elements without a comma in front. -/
def JElems.stext : JElems → Bytes
  | .nil => []
  | .cons pre v post tl => pre ++ (v.text ++ (post ++ tl.text))

theorem stext_nil : JMems.stext .nil = [] := rfl

theorem stext_cons (pre n pc qc : Bytes) (v : JVal) (post : Bytes) (tl : JMems) :
    JMems.stext (.cons pre n pc qc v post tl) =
      pre ++ (0x22 :: (n ++ (0x22 :: (pc ++ (0x3A :: (qc ++ (v.text ++ (post ++ tl.text)))))))) := rfl

theorem obj_stext (w : Bytes) (ms : JMems) : (JVal.obj w ms).text = 0x7B :: (JMems.stext ms ++ (w ++ [0x7D])) := by
  cases ms <;> simp [JVal.text, JMems.stext]

theorem arr_stext (w : Bytes) (es : JElems) : (JVal.arr w es).text = 0x5B :: (JElems.stext es ++ (w ++ [0x5D])) := by
  cases es <;> simp [JVal.text, JElems.stext]

theorem mems_stext {ms : JMems} (h : ms ≠ .nil) : ms.text = 0x2C :: JMems.stext ms := by
  cases ms with
  | nil => exact absurd rfl h
  | cons => rfl

theorem elems_stext {es : JElems} (h : es ≠ .nil) : es.text = 0x2C :: JElems.stext es := by
  cases es with
  | nil => exact absurd rfl h
  | cons => rfl

/-! ## The document -/

/-- A member, laid out as the writer does. -/
def mem (w : WCfg) (pre name : Bytes) (v : JVal) (tl : JMems) : JMems := .cons pre name [] (spaceText w) v [] tl

/-- The names of the required members. -/
def sReq (w : WCfg) (n : Nat) : SMems → JElems
  | .nil => .nil
  | .cons name _ t tl => if t.isNull then sReq w n tl else .cons (nextMember w n) (.str name) [] (sReq w n tl)

/-- The dependencies. -/
def sDeps (w : WCfg) (n : Nat) : SMems → JMems
  | .nil => .nil
  | .cons name dep _ tl =>
    match dep with
    | none => sDeps w n tl
    | some dn =>
      mem w (nextMember w n) name (.arr (nextMember w n) (.cons (nextMember w (n + 1)) (.str dn) [] .nil)) (sDeps w n tl)

/-- The members after the properties. -/
def sClassEnd (w : WCfg) (n : Nat) (ms : SMems) : JMems :=
  mem w (nextMember w n) asc! "required" (.arr (nextMember w n) (sReq w (n + 1) ms))
    (if ms.anyDep then mem w (nextMember w n) asc! "dependencies" (.obj (nextMember w n) (sDeps w (n + 1) ms)) .nil else .nil)

/-- What is written in front of the closing brace. -/
def sTail (w : WCfg) (n : Nat) (root : Bool) : STy → Bytes
  | .null t => sTail w n root t
  | .obj _ => notRoot root (nextMember w n)
  | .ord _ => notRoot root (nextMember w n)
  | _ => nextMember w n

mutual
/-- The members of a schema. -/
def sMems (w : WCfg) (n : Nat) (root : Bool) (t : STy) : JMems :=
  match t with
  | .bool => mem w (notRoot root (nextMember w (n + 1))) asc! "type" (.str asc! "boolean") .nil
  | .real => mem w (notRoot root (nextMember w (n + 1))) asc! "type" (.str asc! "number") .nil
  | .signed => mem w (notRoot root (nextMember w (n + 1))) asc! "type" (.str asc! "integer") .nil
  | .string => mem w (notRoot root (nextMember w (n + 1))) asc! "type" (.str asc! "string") .nil
  | .date =>
    mem w (notRoot root (nextMember w (n + 1))) asc! "type" (.str asc! "string")
      (mem w (nextMember w (inner root n)) asc! "format" (.str asc! "date-time") .nil)
  | .unsigned =>
    mem w (notRoot root (nextMember w (n + 1))) asc! "type" (.str asc! "integer")
      (mem w (nextMember w (inner root n)) asc! "minimum" (.num asc! "0") .nil)
  | .null t => sMems w n root t
  | .arr t =>
    mem w (nextMember w (inner root n)) asc! "type" (.str asc! "array")
      (mem w (nextMember w (inner root n)) asc! "items"
        (.obj (sTail w (inner root n) false t) (sMems w (inner root n) false t)) .nil)
  | .kv t =>
    mem w (nextMember w (inner root n)) asc! "type" (.str asc! "object")
      (mem w (nextMember w (inner root n)) asc! "additionalProperties"
        (.obj (sTail w (inner root n) false t) (sMems w (inner root n) false t)) .nil)
  | .tup ts =>
    mem w (nextMember w (inner root n)) asc! "type" (.str asc! "array")
      (mem w (nextMember w (inner root n)) asc! "items"
        (.arr (if ts.isNil then [] else nextMember w (inner root n)) (sItems w (inner root n + 1) ts)) .nil)
  | .variant ts =>
    mem w (nextMember w (inner root n)) asc! "oneOf"
      (.arr (if ts.isNil then [] else nextMember w (inner root n)) (sItems w (inner root n + 1) ts)) .nil
  | .obj ms =>
    if ms.isNil then .nil else
      mem w (nextMember w (inner root n)) asc! "type" (.str asc! "object")
        (mem w (nextMember w (inner root n)) asc! "properties"
          (.obj (nextMember w (inner root n)) (sProps w (inner root n + 1) ms))
          (sClassEnd w (inner root n) ms))
  | .ord ts =>
    if ts.isNil then .nil else
      mem w (nextMember w (inner root n)) asc! "type" (.str asc! "array")
        (mem w (nextMember w (inner root n)) asc! "items"
          (.arr (nextMember w (inner root n)) (sItems w (inner root n + 1) ts)) .nil)
/-- The schemas in an array. -/
def sItems (w : WCfg) (n : Nat) (ts : STys) : JElems :=
  match ts with
  | .nil => .nil
  | .cons t tl => .cons (nextMember w n) (.obj (sTail w n false t) (sMems w n false t)) [] (sItems w n tl)
/-- The properties. -/
def sProps (w : WCfg) (n : Nat) (ms : SMems) : JMems :=
  match ms with
  | .nil => .nil
  | .cons name _ t tl => mem w (nextMember w n) name (.obj (sTail w n false t) (sMems w n false t)) (sProps w n tl)
end

/-- The schema of a type that is not the root. -/
def sDoc (w : WCfg) (n : Nat) (t : STy) : JVal := .obj (sTail w n false t) (sMems w n false t)

/-- The whole document. -/
def sRoot (w : WCfg) (t : STy) (id title : Bytes) : JVal :=
  .obj (sTail w 1 true t ++ nextMember w 0)
    (mem w (nextMember w 1) asc! "$schema" (.str asc! "https://json-schema.org/draft/2020-12/schema")
      (mem w (nextMember w 1) asc! "$id" (.str id)
        (mem w (nextMember w 1) asc! "title" (.str title) (sMems w 1 true t))))

/-! ## Its text -/

theorem schemaRequired_text (w : WCfg) (n : Nat) : (ms : SMems) →
    schemaRequired w n true ms = JElems.stext (sReq w n ms) ∧ schemaRequired w n false ms = (sReq w n ms).text
  | .nil => ⟨rfl, rfl⟩
  | .cons name dep t tl => by
    have ih := schemaRequired_text w n tl
    cases h : t.isNull
    · simp [schemaRequired, sReq, h, JElems.stext, JElems.text, JVal.text, ih.2]
    · simp [schemaRequired, sReq, h, ih.1, ih.2]

theorem schemaDeps_text (w : WCfg) (n : Nat) : (ms : SMems) →
    schemaDeps w n true ms = JMems.stext (sDeps w n ms) ∧ schemaDeps w n false ms = (sDeps w n ms).text
  | .nil => ⟨rfl, rfl⟩
  | .cons name dep t tl => by
    have ih := schemaDeps_text w n tl
    cases dep with
    | none => simp [schemaDeps, sDeps, ih.1, ih.2]
    | some dn =>
      simp [schemaDeps, sDeps, mem, JMems.stext, JMems.text, JVal.text, JElems.text, ih.2]

theorem schemaClassEnd_text (w : WCfg) (n : Nat) (ms : SMems) : schemaClassEnd w n ms = (sClassEnd w n ms).text := by
  rw [schemaClassEnd, sClassEnd]
  cases h : ms.anyDep <;>
  simp [outputKv, mem, JMems.text, arr_stext, obj_stext, (schemaRequired_text w (n + 1) ms).1, (schemaDeps_text w (n + 1) ms).1]

mutual
theorem schemaText_text (w : WCfg) (n : Nat) (root : Bool) (t : STy) :
    schemaText w n root t =
      notRoot root [chLBrace] ++ (JMems.stext (sMems w n root t) ++ (sTail w n root t ++ notRoot root [chRBrace])) := by
  match t with
  | .bool | .real | .signed | .string =>
    cases root <;>
    simp [schemaText, schemaType, sMems, sTail, mem, JMems.stext, JMems.text, JVal.text, outputKv, notRoot]
  | .date | .unsigned =>
    cases root <;>
    simp [schemaText, schemaType2, sMems, sTail, mem, JMems.stext, JMems.text, JVal.text, outputKv, notRoot]
  | .null t => simpa only [schemaText, sMems, sTail] using schemaText_text w n root t
  | .arr t | .kv t =>
    have ih := schemaText_text w (inner root n) false t
    cases root <;>
    simp [schemaText, sMems, sTail, mem, JMems.stext, JMems.text, JVal.text, obj_stext, outputKv, notRoot, ih]
  | .tup ts | .variant ts =>
    have ih := (schemaItems_text w (inner root n + 1) ts).1
    have hnil : ts.isNil = true → sItems w (inner root n + 1) ts = .nil := by
      cases ts
      · intro _; simp [sItems]
      · intro h; cases h
    cases h : ts.isNil <;>
    cases root <;>
    simp [schemaText, sMems, sTail, mem, JMems.stext, JMems.text, JElems.stext, JVal.text, arr_stext, outputKv, notRoot, ih, h, hnil]
  | .obj ms =>
    have ih := schemaProps_text w (inner root n + 1) ms
    have he := schemaClassEnd_text w (inner root n) ms
    cases h : ms.isNil
    · replace ih := ih h
      cases root <;>
      simp [schemaText, sMems, sTail, mem, stext_cons, JMems.text, JVal.text, obj_stext, outputKv, notRoot, ← ih, h, he]
    · cases root <;>
      simp [schemaText, sMems, sTail, stext_nil, notRoot, h]
  | .ord ts =>
    have ih := (schemaItems_text w (inner root n + 1) ts).1
    cases h : ts.isNil <;>
    cases root <;>
    simp [schemaText, sMems, sTail, mem, JMems.stext, JMems.text, JVal.text, arr_stext, outputKv, notRoot, ih, h]
theorem schemaItems_text (w : WCfg) (n : Nat) (ts : STys) :
    schemaItems w n true ts = JElems.stext (sItems w n ts) ∧ schemaItems w n false ts = (sItems w n ts).text := by
  match ts with
  | .nil => exact ⟨rfl, rfl⟩
  | .cons t tl =>
    have ih := schemaText_text w n false t
    have it := (schemaItems_text w n tl).2
    constructor <;>
    simp [schemaItems, sItems, JElems.stext, JElems.text, obj_stext, ih, it, notRoot]
theorem schemaProps_text (w : WCfg) (n : Nat) (ms : SMems) (h : ms.isNil = false) :
    nextMember w n ++ schemaProps w n ms = JMems.stext (sProps w n ms) := by
  match ms with
  | .nil => cases h
  | .cons name dep t tl =>
    have ih := schemaText_text w n false t
    cases tl with
    | nil => simp [schemaProps, sProps, mem, JMems.stext, JMems.text, obj_stext, ih, notRoot, SMems.isNil]
    | cons a b c d =>
      have it := schemaProps_text w n (.cons a b c d) rfl
      rw [schemaProps, sProps, mem, JMems.stext, mems_stext (by simp [sProps, mem]), ← it]
      simp [obj_stext, ih, notRoot, SMems.isNil]
end

theorem sMems_nil (w : WCfg) (n : Nat) (root : Bool) : (t : STy) → t.isEmptyClass = false → sMems w n root t ≠ .nil
  | .bool, _ | .real, _ | .signed, _ | .string, _ | .date, _ | .unsigned, _ | .arr _, _ | .kv _, _ | .tup _, _
  | .variant _, _ => by simp [sMems, mem]
  | .null t, h => by rw [sMems]; exact sMems_nil w n root t h
  | .obj ms, h => by
    rw [STy.isEmptyClass] at h
    simp [sMems, h, mem]
  | .ord ts, h => by
    rw [STy.isEmptyClass] at h
    simp [sMems, h, mem]

/-- The text written is the text of the document, unless a class without members is the root. -/
theorem toJsonSchema_text (w : WCfg) (t : STy) (id title : Bytes) (h : t.isEmptyClass = false) :
    toJsonSchema w t id title = (sRoot w t id title).text := by
  rw [toJsonSchema, sRoot, schemaText_text]
  simp [mem, JMems.stext, JMems.text, JVal.text, outputKv, notRoot, mems_stext (sMems_nil w 1 true t h)]

end Verif
