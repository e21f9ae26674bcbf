import Verif.Proof.ZeroTermMain
import Verif.Props.Write
import Verif.Proof.ZeroTermSame

/-!
# Properties C62–C64: documents in a `std::string`

`from_json` of a `std::string` parses it as a zero terminated string (`Model/ZeroTerm`).
-/

namespace Verif

open Spec

/-! ## C62 -/

/-- **C62.**  `from_json` of a `std::string` gives the value that the document means.  (The document itself is no unquoted boolean
or integer that may be a string, see `C92_false_at_the_end`.) -/
theorem C62_std_string_reads (t : TCfg) (hck : t.cfg.checked = true) (Δ : Env) (henv : EnvOk Δ) (ty : Ty) (d : JVal)
    (v : Val) (hr : Reads Δ (Usable t) t.exactAll ty d v) (hw : d.WF) (hf : d.Fits)
    (hb : v.bareLit = true → d.closed = true) :
    ∃ f0, ∀ f, f0 ≤ f → fromJsonZ t Δ f ty d.text = .ok v :=
  fromJsonZ_doc hck henv usable_nameOk rfl hr (dok_of hw hf) hb

/-- **C62.**  A `std::string` that `to_json` wrote, read as the same type, is the value again. -/
theorem C62_std_string_round_trip (w : WCfg) (t : TCfg) (hck : t.cfg.checked = true) (Δ : Env) (hΔ : Writable Δ)
    (hp : PlainNames t Δ) (hx : w.tc = true → NoExactOrdered t Δ) (ty : Ty) (v : Val) (hv : HasTy Δ ValidUtf8 (Seven w.only7bit) ty v)
    (hdep : v.depth < 2 ^ 32) (hb : v.bareLit = false) :
    ∃ out, toJson w Δ ty v = .ok out ∧
      (out.length < 2 ^ 63 → ∃ f0, ∀ f, f0 ≤ f → fromJsonZ t Δ f ty out = .ok v) := by
  obtain ⟨d, hd⟩ := layVal_ok (w := w) 0 ty v hv
  refine ⟨d.text, ?_, fun hl => ?_⟩
  · rw [toJson, writeVal_text hΔ 0 ty v hv, hd]
    rfl
  · have hr := layVal_reads hΔ (readable_of hp hx) 0 ty v hv hd
    have hdd := layVal_depth 0 ty v hd
    exact fromJsonZ_doc hck hΔ.nodup usable_nameOk rfl hr ⟨layVal_wf hΔ 0 ty v hv hd, by omega, hl⟩ (by simp [hb])

theorem emptyZ_trim_iff (k : Bytes) : emptyZ 0 (trimChecked k) = true ↔ LibSpace (k.takeWhile (· != 0)) := by
  induction k with
  | nil => simp [trimChecked, LibSpace, emptyZ, moreZ]
  | cons c cs ih =>
    have hb : isSpace c = true ↔ 0x01 ≤ c ∧ c ≤ 0x20 :=
      forall_uint8 (P := fun c => isSpace c = true ↔ 0x01 ≤ c ∧ c ≤ 0x20) (by decide +kernel) c
    by_cases h0 : c = 0
    · subst h0
      rw [trimChecked_cons_of_not _ (by decide)]
      simp [LibSpace, emptyZ, moreZ, frontZ]
    · rw [List.takeWhile_cons_of_pos (by simp [h0])]
      by_cases hc : isSpace c = true
      · rw [trimChecked, if_pos hc, ih]
        simp only [LibSpace, List.mem_cons, forall_eq_or_imp, hb.1 hc, true_and]
      · rw [trimChecked_cons_of_not _ (by simpa using hc)]
        simp only [emptyZ, moreZ, frontZ, LibSpace, List.mem_cons, forall_eq_or_imp]
        rw [← hb]
        simp [hc, h0]

theorem takeWhile_dropNul (k : Bytes) : (dropNul k).takeWhile (· != 0) = k.takeWhile (· != 0) := by
  unfold dropNul
  split
  · rename_i h
    obtain ⟨l, rfl⟩ := List.getLast?_eq_some_iff.1 h
    simp only [List.dropLast_concat, List.takeWhile_append]
    split
    · rename_i hl
      simp [(List.takeWhile_prefix (· != 0) (l := l)).eq_of_length hl]
    · rfl
  · rfl

/-- **C62.**  A document followed by any text `k` (a number or literal: by something that ends it).  Without
`MustVerifyEndOfDataIsValid` the result does not depend on `k`; with it, parsing succeeds iff what stands in `k` in front of
the first NUL, if any, is whitespace. -/
theorem C62_std_string_trailing (t : TCfg) (hck : t.cfg.checked = true) (Δ : Env) (henv : EnvOk Δ) (ty : Ty) (d : JVal)
    (v : Val) (hr : Reads Δ (Usable t) t.exactAll ty d v) (hw : d.WF) (hf : d.Fits) (k : Bytes)
    (hk : d.ends v = true ∨ AfterValue k) (hb : v.bareLit = true → d.closed = true) :
    ∃ f0, ∀ f, f0 ≤ f →
      (t.verifyEnd = false → fromJsonZ t Δ f ty (d.text ++ k) = .ok v) ∧
      (t.verifyEnd = true → LibSpace (k.takeWhile (· != 0)) → fromJsonZ t Δ f ty (d.text ++ k) = .ok v) ∧
      (t.verifyEnd = true → ¬ LibSpace (k.takeWhile (· != 0)) →
        fromJsonZ t Δ f ty (d.text ++ k) = .err .invalidEndOfValue) := by
  obtain ⟨f0, hf0⟩ := fromJsonZ_reads hck henv usable_nameOk rfl hr (dok_of hw hf) k
    (fun hc => hk.resolve_left (by simp [hc])) (fun _ => hb)
  refine ⟨f0, fun f hfu => ?_⟩
  rw [hf0 f hfu]
  have hs := emptyZ_trim_iff (dropNul k)
  rw [takeWhile_dropNul] at hs
  refine ⟨fun h => by simp [h], fun h h' => by simp [hs.2 h'], fun h h' => ?_⟩
  rw [if_pos ⟨h, by simpa using fun hc => h' (hs.1 hc)⟩]

/-- Non-vacuity: the sample document followed by ` x`. -/
example : ∃ f0, ∀ f, f0 ≤ f →
    fromJsonZ { verifyEnd := true } exEnv f (.ref 0) (exDoc.text ++ [0x20, 0x78]) = .err .invalidEndOfValue := by
  obtain ⟨f0, h⟩ := C62_std_string_trailing { verifyEnd := true } rfl exEnv exEnv_ok _ _ _ exDoc_reads exDoc_wf exDoc_fits
    [0x20, 0x78] (Or.inl rfl) (fun _ => rfl)
  exact ⟨f0, fun f hf => (h f hf).2.2 rfl (by simp [LibSpace, UInt8.le_iff_toNat_le])⟩

/-- Non-vacuity: the document and the value of `C50_from_json_reads` and `C18_round_trip`. -/
example : ∃ f0, ∀ f, f0 ≤ f → fromJsonZ {} exEnv f (.ref 0) exDoc.text = .ok exVal :=
  C62_std_string_reads {} rfl exEnv exEnv_ok _ _ _ exDoc_reads exDoc_wf exDoc_fits (fun _ => rfl)

example : ∃ out, toJson { pretty := true, tc := true } exEnv (.ref 0) exVal = .ok out ∧
    (out.length < 2 ^ 63 → ∃ f0, ∀ f, f0 ≤ f → fromJsonZ {} exEnv f (.ref 0) out = .ok exVal) :=
  C62_std_string_round_trip _ {} rfl exEnv exEnv_writable (exEnv_plain _) (fun _ => by intro i ms ex h; cases h) _ _
    exVal_hasTy (by decide) rfl

/-- The same, by evaluating the model. -/
example : fromJsonZ {} exEnv 10 (.ref 0) exDoc.text = .ok exVal := by decide +kernel

/-! ## C63 -/

/-- `struct B { int a; bool b; }` with the `bool` first. -/
def exEnvBA : Env := fun _ => .obj [⟨[0x62], .bool⟩, ⟨[0x61], .int exI32 false⟩] false

/-- `struct T { string a; }` -/
def exEnvT : Env := fun _ => .obj [⟨[0x61], .str true⟩] false

/-- C63 does not hold for strings that end in a backslash: reading `"abc\` goes past the terminator. -/
theorem C63_false_for_final_backslash :
    fromJsonZ {} exEnvT 9 (.str true) [0x22, 0x61, 0x62, 0x63, 0x5C] = .ub := by decide +kernel

/-- C63 does not hold for classes: a literal that is cut off is stepped over (`{"b":t`), and the search for the end of the
class runs on (`{"a":"s"x`); where nothing at all follows the value (`{"a":"s"`) the end is noticed. -/
theorem C63_false_for_classes :
    fromJsonZ {} exEnvB 9 (.ref 0) [0x7B, 0x22, 0x62, 0x22, 0x3A, 0x74] = .ub ∧
    fromJsonZ {} exEnvT 9 (.ref 0) [0x7B, 0x22, 0x61, 0x22, 0x3A, 0x22, 0x73, 0x22, 0x78] = .ub ∧
    fromJsonZ {} exEnvT 9 (.ref 0) [0x7B, 0x22, 0x61, 0x22, 0x3A, 0x22, 0x73, 0x22] = .err .unexpectedEndOfData ∧
    fromJsonZ {} exEnvT 9 (.ref 0) [0x7B, 0x22, 0x61, 0x22, 0x3A, 0x22, 0x73, 0x22, 0x2C] = .err .unexpectedEndOfData := by decide +kernel

/-! ## C64 -/

/-- C64 does not hold for an array that is cut off: `[` is rejected from a `std::string`, from a `string_view` it is read
past its end. -/
theorem C64_string_view_overrun :
    fromJsonZ {} exEnvB 9 (.arr (.int exI32 false)) [0x5B] = .err .unexpectedEndOfData ∧
    fromJson {} exEnvB 9 (.arr (.int exI32 false)) [0x5B] = .ub := by decide +kernel


/-- **C64, partial.**  On every well-typed document `from_json` gives the same result for a `std::string` and for a
`string_view`. -/
theorem C64_same_document_partial (t : TCfg) (hck : t.cfg.checked = true) (Δ : Env) (henv : EnvOk Δ) (ty : Ty) (d : JVal)
    (v : Val) (hr : Reads Δ (Usable t) t.exactAll ty d v) (hw : d.WF) (hf : d.Fits) (he : EndsWell d v) :
    ∃ f0, ∀ f, f0 ≤ f → fromJsonZ t Δ f ty d.text = fromJson t Δ f ty d.text := by
  obtain ⟨a, ha⟩ := C62_std_string_reads t hck Δ henv ty d v hr hw hf (by simp [he.1])
  obtain ⟨b, hb⟩ := C50_from_json_reads t hck Δ henv ty d v hr hw hf he
  exact ⟨max a b, fun f hfu => by rw [ha f (by omega), hb f (by omega)]⟩

/-- Non-vacuity. -/
example : ∃ f0, ∀ f, f0 ≤ f → fromJsonZ {} exEnv f (.ref 0) exDoc.text = fromJson {} exEnv f (.ref 0) exDoc.text :=
  C64_same_document_partial {} rfl exEnv exEnv_ok _ _ _ exDoc_reads exDoc_wf exDoc_fits (endsWell_of rfl)

/-- C64 does not hold for text that is not JSON: `{"b":txyz,"a":1}` is accepted from a `std::string` only. -/
theorem C64_false_for_literals :
    fromJsonZ {} exEnvB 9 (.ref 0) [0x7B, 0x22, 0x62, 0x22, 0x3A, 0x74, 0x78, 0x79, 0x7A, 0x2C, 0x22, 0x61, 0x22, 0x3A, 0x31,
      0x7D] = .ok (.cls [.int 1, .bool true]) ∧
    fromJson {} exEnvB 9 (.ref 0) [0x7B, 0x22, 0x62, 0x22, 0x3A, 0x74, 0x78, 0x79, 0x7A, 0x2C, 0x22, 0x61, 0x22, 0x3A, 0x31,
      0x7D] = .err .invalidTrue := by decide +kernel

/-- C64 does not hold for members of the wrong type: the member `a` of `{"a":1.5,"b":true}`, an `int`, is 1 when the document
is a `std::string` and 2645 when it is a `string_view`. -/
theorem C64_false_for_fractions :
    fromJsonZ {} exEnvBA 9 (.ref 0) [0x7B, 0x22, 0x61, 0x22, 0x3A, 0x31, 0x2E, 0x35, 0x2C, 0x22, 0x62, 0x22, 0x3A, 0x74, 0x72,
      0x75, 0x65, 0x7D] = .ok (.cls [.bool true, .int 1]) ∧
    fromJson {} exEnvBA 9 (.ref 0) [0x7B, 0x22, 0x61, 0x22, 0x3A, 0x31, 0x2E, 0x35, 0x2C, 0x22, 0x62, 0x22, 0x3A, 0x74, 0x72,
      0x75, 0x65, 0x7D] = .ok (.cls [.bool true, .int 2645]) := by decide +kernel

/-- C64 does not hold for text with NUL bytes: with `MustVerifyEndOfDataIsValid`, `1` followed by NUL and `x` is accepted
from a `std::string` only. -/
theorem C64_false_for_nul :
    fromJsonZ { verifyEnd := true } exEnvB 9 (.int exI32 false) [0x31, 0x00, 0x78] = .ok (.int 1) ∧
    fromJson { verifyEnd := true } exEnvB 9 (.int exI32 false) [0x31, 0x00, 0x78] = .err .invalidEndOfValue := by decide +kernel

end Verif
