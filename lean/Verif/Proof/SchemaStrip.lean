import Verif.Proof.RefParse
import Verif.Spec.Schema

/-!
# Whitespace in a schema does not matter
-/

namespace Verif

open Spec

theorem elems_strip_toList : (es : JElems) → es.strip.toList = es.toList.map JVal.strip
  | .nil => rfl
  | .cons _ v _ tl => by simp [JElems.strip, JElems.toList, elems_strip_toList tl]

theorem mems_strip_toList : (ms : JMems) → ms.strip.toList = ms.toList.map fun p => (p.1, p.2.strip)
  | .nil => rfl
  | .cons _ n _ _ v _ tl => by simp [JMems.strip, JMems.toList, mems_strip_toList tl]

theorem strip_elems (v : JVal) : v.strip.elems = v.elems.map JVal.strip := by
  cases v <;> simp [JVal.strip, JVal.elems, elems_strip_toList]

theorem strip_mems (v : JVal) : v.strip.mems = v.mems.map fun p => (p.1, p.2.strip) := by
  cases v <;> simp [JVal.strip, JVal.mems, mems_strip_toList]

theorem strip_strings (v : JVal) : v.strip.strings = v.strings := by
  rw [JVal.strings, JVal.strings, strip_elems, List.filterMap_map]
  congr 1
  funext e
  cases e <;> simp [JVal.strip]

theorem strip_propNames (ms : JMems) : ms.strip.propNames = ms.propNames := by
  rw [JMems.propNames, JMems.propNames, mems_strip_toList]
  generalize ms.toList = l
  induction l with
  | nil => rfl
  | cons p l ih =>
    by_cases h : p.1 = asc! "properties"
    · simp [h, strip_mems, ih]
    · simp [h, ih]

theorem strip_str (v : JVal) (t : Bytes) : v.strip = .str t ↔ v = .str t := by
  cases v <;> simp [JVal.strip]

theorem strip_num (v : JVal) (t : Bytes) : v.strip = .num t ↔ v = .num t := by
  cases v <;> simp [JVal.strip]

theorem strip_isObj (v : JVal) : (∃ w ms, v.strip = .obj w ms) ↔ ∃ w ms, v = .obj w ms := by
  cases v <;> simp [JVal.strip]

variable (D : Draft)

mutual
theorem valid_strip (d : JVal) : (s : JVal) → (Valid D s.strip d ↔ Valid D s d)
  | .null => Iff.rfl
  | .tru => Iff.rfl
  | .fls => Iff.rfl
  | .num _ => Iff.rfl
  | .str _ => Iff.rfl
  | .arr _ _ => by simp [JVal.strip, Valid]
  | .obj _ ms => by
    rw [JVal.strip, Valid, Valid, strip_propNames]
    exact keywords_strip _ d ms
termination_by structural x => x
theorem keywords_strip (ps : List Bytes) (d : JVal) : (ms : JMems) → (Keywords D ps ms.strip d ↔ Keywords D ps ms d)
  | .nil => Iff.rfl
  | .cons a n b c v e tl => by
    rw [JMems.strip, Keywords.eq_def, Keywords.eq_def D ps (.cons a n b c v e tl) d]
    simp only
    rw [keywords_strip ps d tl]
    refine and_congr (imp_congr_right fun _ => ?_) (and_congr (imp_congr_right fun _ => ?_) (and_congr
      (imp_congr_right fun _ => ?_) (and_congr (imp_congr_right fun _ => ?_) (and_congr (imp_congr_right fun _ => ?_)
        (and_congr (imp_congr_right fun _ => ?_) (and_congr (imp_congr_right fun _ => ?_)
          (and_congr (imp_congr_right fun _ => imp_congr_right fun _ => ?_) Iff.rfl)))))))
    · simp only [strip_str]
    · simp only [strip_num]
    · cases v with
      | obj _ pm => exact properties_strip d pm
      | _ => exact Iff.rfl
    · rw [strip_strings]
    · exact forall₃_congr fun p _ _ => valid_strip p.2 v
    · cases v with
      | arr _ es => exact and_congr Iff.rfl (positions_strip es d.elems)
      | obj w ms => exact forall₂_congr fun e _ => valid_strip e (.obj w ms)
      | _ => exact Iff.rfl
    · cases v with
      | arr _ es => exact oneOf_strip d es
      | _ => exact Iff.rfl
    · rw [strip_mems]
      simp only [List.mem_map, forall_exists_index, and_imp, forall_apply_eq_imp_iff₂, strip_strings]
termination_by structural x => x
theorem properties_strip (d : JVal) : (pm : JMems) → (Properties D pm.strip d ↔ Properties D pm d)
  | .nil => Iff.rfl
  | .cons _ n _ _ s _ tl => by
    rw [JMems.strip, Properties, Properties, properties_strip d tl]
    exact and_congr (forall₃_congr fun p _ _ => valid_strip p.2 s) Iff.rfl
termination_by structural x => x
theorem positions_strip : (ss : JElems) → (es : List JVal) → (Positions D ss.strip es ↔ Positions D ss es)
  | .nil, _ => Iff.rfl
  | .cons _ s _ tl, es => by
    rw [JElems.strip, Positions, Positions, positions_strip tl es.tail]
    exact and_congr (forall₂_congr fun e _ => valid_strip e s) Iff.rfl
termination_by structural x => x
theorem oneOf_strip (d : JVal) : (ss : JElems) → (OneOf D ss.strip d ↔ OneOf D ss d)
  | .nil => Iff.rfl
  | .cons _ s _ tl => by
    rw [JElems.strip, OneOf, OneOf, oneOf_strip d tl, noneOf_strip d tl, valid_strip d s]
termination_by structural x => x
theorem noneOf_strip (d : JVal) : (ss : JElems) → (NoneOf D ss.strip d ↔ NoneOf D ss d)
  | .nil => Iff.rfl
  | .cons _ s _ tl => by
    rw [JElems.strip, NoneOf, NoneOf, noneOf_strip d tl, valid_strip d s]
termination_by structural x => x
end

theorem strip_isNames (v : JVal) : IsNames v.strip ↔ IsNames v := by
  unfold IsNames
  rw [strip_strings]
  constructor
  · rintro ⟨w, es, h1, h2, h3⟩
    cases v with
    | arr w' es' =>
      refine ⟨_, _, rfl, fun e he => ?_, h3⟩
      simp only [JVal.strip, JVal.arr.injEq] at h1
      obtain ⟨b, hb⟩ := h2 e.strip (by rw [← h1.2, elems_strip_toList]; exact List.mem_map_of_mem he)
      exact ⟨b, (strip_str e b).1 hb⟩
    | _ => simp [JVal.strip] at h1
  · rintro ⟨w, es, rfl, h2, h3⟩
    refine ⟨_, _, rfl, fun e he => ?_, h3⟩
    rw [elems_strip_toList] at he
    obtain ⟨x, hx, rfl⟩ := List.mem_map.1 he
    obtain ⟨b, rfl⟩ := h2 x hx
    exact ⟨b, rfl⟩

theorem elems_strip_nil (es : JElems) : es.strip = .nil ↔ es = .nil := by
  cases es <;> simp [JElems.strip]

mutual
theorem isSchema_strip : (s : JVal) → (IsSchema D s.strip ↔ IsSchema D s)
  | .null => Iff.rfl
  | .tru => Iff.rfl
  | .fls => Iff.rfl
  | .num _ => Iff.rfl
  | .str _ => Iff.rfl
  | .arr _ _ => by simp [JVal.strip, IsSchema]
  | .obj _ ms => by
    rw [JVal.strip, IsSchema, IsSchema]
    exact keywordsOk_strip ms
theorem keywordsOk_strip : (ms : JMems) → (KeywordsOk D ms.strip ↔ KeywordsOk D ms)
  | .nil => Iff.rfl
  | .cons a n b c v e tl => by
    rw [JMems.strip, KeywordsOk.eq_def, KeywordsOk.eq_def D (.cons a n b c v e tl)]
    simp only
    rw [keywordsOk_strip tl]
    refine and_congr (imp_congr_right fun _ => ?_) (and_congr (imp_congr_right fun _ => ?_) (and_congr
      (imp_congr_right fun _ => ?_) (and_congr (imp_congr_right fun _ => ?_) (and_congr (imp_congr_right fun _ => ?_)
        (and_congr (imp_congr_right fun _ => ?_) (and_congr (imp_congr_right fun _ => ?_)
          (and_congr (imp_congr_right fun _ => ?_) (and_congr (imp_congr_right fun _ => ?_) Iff.rfl))))))))
    · simp only [strip_str]
    · simp only [strip_num]
    · cases v with
      | obj _ pm => exact propertiesOk_strip pm
      | _ => exact Iff.rfl
    · exact strip_isNames v
    · exact isSchema_strip v
    · cases v with
      | arr _ es =>
        exact and_congr Iff.rfl (and_congr (not_congr (elems_strip_nil es)) (schemasOk_strip es))
      | obj w ms => exact isSchema_strip (.obj w ms)
      | _ => exact Iff.rfl
    · cases v with
      | arr _ es => exact and_congr (not_congr (elems_strip_nil es)) (schemasOk_strip es)
      | _ => exact Iff.rfl
    · rw [strip_isObj, strip_mems]
      simp only [List.mem_map, forall_exists_index, and_imp, forall_apply_eq_imp_iff₂, strip_isNames]
    · simp only [strip_str]
theorem propertiesOk_strip : (pm : JMems) → (PropertiesOk D pm.strip ↔ PropertiesOk D pm)
  | .nil => Iff.rfl
  | .cons _ n _ _ s _ tl => by
    rw [JMems.strip, PropertiesOk, PropertiesOk, propertiesOk_strip tl, isSchema_strip s]
theorem schemasOk_strip : (ss : JElems) → (SchemasOk D ss.strip ↔ SchemasOk D ss)
  | .nil => Iff.rfl
  | .cons _ s _ tl => by
    rw [JElems.strip, SchemasOk, SchemasOk, schemasOk_strip tl, isSchema_strip s]
end

variable {D}

theorem valid_text {e e' : JVal} (h : e.WF) (h' : e'.WF) (ht : e.text = e'.text) (d : JVal) : Valid D e d ↔ Valid D e' d := by
  rw [← valid_strip D d e, ← valid_strip D d e', text_unique h h' ht]

theorem isSchema_text {e e' : JVal} (h : e.WF) (h' : e'.WF) (ht : e.text = e'.text) : IsSchema D e ↔ IsSchema D e' := by
  rw [← isSchema_strip D e, ← isSchema_strip D e', text_unique h h' ht]

end Verif
