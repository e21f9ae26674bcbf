import Verif.Spec.Json

/-!
# A concrete document used by the non-vacuity examples

`{"a\"b" : [1, -2.5e+3 ,"x]é"], "k":{ },"n" :null}`
-/

namespace Verif.Spec

/-- `1` -/
def sampleOne : JVal := .num [0x31]
/-- `-2.5e+3` -/
def sampleNum : JVal := .num [0x2D, 0x32, 0x2E, 0x35, 0x65, 0x2B, 0x33]
/-- `"x]é"` -/
def sampleStr : JVal := .str [0x78, 0x5D, 0x5C, 0x75, 0x30, 0x30, 0x65, 0x39]
/-- `[1, -2.5e+3 ,"x]é"]` -/
def sampleArr : JVal :=
  .arr [] (.cons [] sampleOne [] (.cons [0x20] sampleNum [0x20] (.cons [] sampleStr [] .nil)))
/-- The whole sample document. -/
def sampleDoc : JVal :=
  .obj [] (.cons [] [0x61, 0x5C, 0x22, 0x62] [0x20] [0x20] sampleArr []
    (.cons [0x20] [0x6B] [] [] (.obj [0x20] .nil) []
      (.cons [] [0x6E] [0x20] [] .null [] .nil)))

theorem sampleOne_wf : sampleOne.WF := by
  refine ⟨[], [0x31], [], [], Or.inl rfl, Or.inr ⟨⟨by simp, ?_⟩, by simp⟩, Or.inl rfl, Or.inl rfl, rfl⟩
  simp [IsDig, UInt8.le_iff_toNat_le]

theorem sampleNum_wf : sampleNum.WF := by
  refine ⟨[0x2D], [0x32], [0x2E, 0x35], [0x65, 0x2B, 0x33], Or.inr rfl, Or.inr ⟨⟨by simp, ?_⟩, by simp⟩,
    Or.inr ⟨[0x35], ⟨by simp, ?_⟩, rfl⟩,
    Or.inr ⟨0x65, [0x2B], [0x33], Or.inl rfl, Or.inr (Or.inl rfl), ⟨by simp, ?_⟩, rfl⟩, rfl⟩ <;>
  simp [IsDig, UInt8.le_iff_toNat_le]

theorem sampleStr_wf : sampleStr.WF := by
  refine IsStrBody.plain (by decide) (by decide) (by decide)
    (.plain (by decide) (by decide) (by decide) (.uni ?_ ?_ ?_ ?_ .nil)) <;>
  simp [IsHex, IsDig, UInt8.le_iff_toNat_le]

theorem sampleArr_wf : sampleArr.WF := by
  simp only [sampleArr, JVal.WF, JVal.WFt, JElems.WFt, IsTail, IsWs]
  exact ⟨Or.inl (by simp), by simp, sampleOne_wf, by simp, by simp [isWsByte], sampleNum_wf, by simp [isWsByte],
    by simp, sampleStr_wf, by simp, trivial⟩

theorem sampleDoc_wf : sampleDoc.WF := by
  simp only [sampleDoc, JVal.WF, JVal.WFt, JMems.WFt, IsTail, IsWs]
  refine ⟨Or.inl (by simp), by simp, ?_, by simp [isWsByte], by simp [isWsByte], sampleArr_wf, by simp,
    by simp [isWsByte], ?_, by simp, by simp, ⟨Or.inl (by simp [isWsByte]), trivial⟩, by simp, by simp, ?_,
    by simp [isWsByte], by simp, trivial, by simp, trivial⟩
  · exact .plain (by decide) (by decide) (by decide) (.esc (Or.inl rfl)
      (.plain (by decide) (by decide) (by decide) .nil))
  · exact .plain (by decide) (by decide) (by decide) .nil
  · exact .plain (by decide) (by decide) (by decide) .nil

end Verif.Spec
