import Verif.Proof.Output
import Verif.Props.Write
import Verif.Spec.Ascii

/-!
# Properties C70–C74: outputs
-/

namespace Verif

open Spec

/-- A value with strings, a nested class and an array, and what is written for it; used in the examples below. -/
def exOutEnv : Env := fun
  | 0 => .obj [⟨[0x6E], .int ⟨32, true⟩ true⟩, ⟨[0x73], .str true⟩, ⟨[0x61], .arr .bool⟩] false
  | _ => .tup [] false

/-- `{"n":-7,"s":"é","a":[true,false]}` -/
def exOutVal : Val := .cls [.int (-7), .str [0xC3, 0xA9], .arr [.bool true, .bool false]]

/-- A value whose string is not UTF-8. -/
def exOutBad : Val := .cls [.int (-7), .str [0x41, 0xFF], .arr [.bool true, .bool false]]

example : toJson {} exOutEnv (.ref 0) exOutVal =
    .ok (asc! "{\"n\":-7,\"s\":\"" ++ [0xC3, 0xA9] ++ asc! "\",\"a\":[true,false]}") := by decide +kernel

example : toJson {} exOutEnv (.ref 0) exOutBad = .err .invalidStringHighASCII := by decide +kernel

/-! ## C70: spans -/

/-- The span that covers `buf` in the memory `pre ++ buf ++ post`. -/
def spanOf (pre buf post : Bytes) : Span := ⟨pre ++ buf ++ post, pre.length, buf.length⟩

/-- **C70.**  `to_json( value, span )`: if the text fits it is at the front of the span, the rest of the span and the memory
around it are as before, and the result is the rest of the span.  If it does not fit the call throws `OutputError`; what is
written is a prefix of the text, inside of the span.  If `value` cannot be written, the call throws that error or
`OutputError`, and nothing outside of the span is written. -/
theorem C70_span (w : WCfg) (Δ : Env) (ty : Ty) (v : Val) (pre buf post : Bytes) :
    (∀ T, toJson w Δ ty v = .ok T → T.length ≤ buf.length →
      toJsonTo spanSink w Δ ty v (spanOf pre buf post) = (spanOf (pre ++ T) (buf.drop T.length) post, .ok ())) ∧
    (∀ T, toJson w Δ ty v = .ok T → buf.length < T.length → ∃ P, P <+: T ∧ P.length ≤ buf.length ∧
      toJsonTo spanSink w Δ ty v (spanOf pre buf post) =
        (spanOf (pre ++ P) (buf.drop P.length) post, .err .outputError)) ∧
    (∀ e, toJson w Δ ty v = .err e → ∃ P r, P.length ≤ buf.length ∧ (r = .err e ∨ r = .err .outputError) ∧
      toJsonTo spanSink w Δ ty v (spanOf pre buf post) = (spanOf (pre ++ P) (buf.drop P.length) post, r)) := by
  have hs : spanOf pre buf post = spanAt pre buf post [] := by simp [spanOf, spanAt]
  have ha : ∀ P, spanAt pre buf post P = spanOf (pre ++ P) (buf.drop P.length) post := by
    intro P
    simp [spanOf, spanAt]
  have hr := opsVal_rep (A := False) (w := w) (Δ := Δ) 0 ty v False.elim
  refine ⟨fun T hT hl => ?_, fun T hT hl => ?_, fun e he => ?_⟩
  · have hT' : writeVal w Δ 0 ty v = .ok T := hT
    have ht := hr.text T hT'
    have hf := spanRun_fits (pre := pre) (buf := buf) (post := post) (opsVal w Δ 0 ty v).1 [] (by rw [ht]; simpa using hl)
    rw [toJsonTo, Sink.runCalls, hs, hf, ht, hr.ends, hT']
    simp [ha, Res.bind]
  · have hT' : writeVal w Δ 0 ty v = .ok T := hT
    have ht := hr.text T hT'
    obtain ⟨P, hP, hPl, hf⟩ := spanRun_full (pre := pre) (buf := buf) (post := post) (opsVal w Δ 0 ty v).1 []
      (by simp) (by rw [ht]; simpa using hl)
    refine ⟨P, ht ▸ hP, by simpa using hPl, ?_⟩
    rw [toJsonTo, Sink.runCalls, hs, hf]
    simp [ha]
  · have he' : writeVal w Δ 0 ty v = .err e := he
    by_cases hl : (opsText (opsVal w Δ 0 ty v).1).length ≤ buf.length
    · have hf := spanRun_fits (pre := pre) (buf := buf) (post := post) (opsVal w Δ 0 ty v).1 [] (by simpa using hl)
      refine ⟨opsText (opsVal w Δ 0 ty v).1, .err e, hl, Or.inl rfl, ?_⟩
      rw [toJsonTo, Sink.runCalls, hs, hf, hr.ends, he']
      simp [ha, Res.bind]
    · obtain ⟨P, hP, hPl, hf⟩ := spanRun_full (pre := pre) (buf := buf) (post := post) (opsVal w Δ 0 ty v).1 []
        (by simp) (by simpa using hl)
      refine ⟨P, .err .outputError, by simpa using hPl, Or.inr rfl, ?_⟩
      rw [toJsonTo, Sink.runCalls, hs, hf]
      simp [ha]

/-- All three cases happen: a span of 34 bytes, one of 20 bytes, and a string that is not UTF-8. -/
example : (toJsonTo spanSink {} exOutEnv (.ref 0) exOutVal (spanOf [1, 2] (List.replicate 36 9) [3])).2 = .ok () ∧
    (toJsonTo spanSink {} exOutEnv (.ref 0) exOutVal (spanOf [1, 2] (List.replicate 20 9) [3])).2 = .err .outputError ∧
    (toJsonTo spanSink {} exOutEnv (.ref 0) exOutBad (spanOf [1, 2] (List.replicate 20 9) [3])).2 =
      .err .invalidStringHighASCII := by decide +kernel

/-! ## C71: pointers -/

/-- The pointer to the start of `buf`, where `buf` is all the memory that follows. -/
def ptrOf (pre buf : Bytes) : Ptr := ⟨pre ++ buf, pre.length⟩

/-- **C71.**  `to_json( value, ptr )`: a null pointer is an error before anything is written.  With enough memory the text
is written there, nothing else is changed, and the pointer returned points behind the text.  With less memory the
behaviour is undefined: the size of the text is the only condition. -/
theorem C71_pointer (w : WCfg) (Δ : Env) (ty : Ty) (v : Val) (pre buf : Bytes) :
    toJsonPtr w Δ ty v none = (none, .err .nullOutputIterator) ∧
    (∀ T, toJson w Δ ty v = .ok T → T.length ≤ buf.length →
      toJsonPtr w Δ ty v (some (ptrOf pre buf)) = (some (ptrOf (pre ++ T) (buf.drop T.length)), .ok ())) ∧
    (∀ T, toJson w Δ ty v = .ok T → buf.length < T.length →
      (toJsonPtr w Δ ty v (some (ptrOf pre buf))).2 = .ub) := by
  have hs : ptrOf pre buf = ptrAt pre buf [] := by simp [ptrOf, ptrAt]
  have hr := opsVal_rep (A := False) (w := w) (Δ := Δ) 0 ty v False.elim
  refine ⟨rfl, fun T hT hl => ?_, fun T hT hl => ?_⟩
  · have hT' : writeVal w Δ 0 ty v = .ok T := hT
    have ht := hr.text T hT'
    have hf := ptrRun_fits (pre := pre) (buf := buf) (opsVal w Δ 0 ty v).1 [] (by rw [ht]; simpa using hl)
    have : toJsonTo ptrSink w Δ ty v (ptrOf pre buf) = (ptrOf (pre ++ T) (buf.drop T.length), .ok ()) := by
      rw [toJsonTo, Sink.runCalls, hs, hf, ht, hr.ends, hT']
      simp [ptrOf, ptrAt, Res.bind]
    rw [toJsonPtr, this]
  · have hT' : writeVal w Δ 0 ty v = .ok T := hT
    have ht := hr.text T hT'
    have hf := ptrRun_full (pre := pre) (buf := buf) (opsVal w Δ 0 ty v).1 [] (by simp) (by rw [ht]; simpa using hl)
    show (toJsonTo ptrSink w Δ ty v (ptrOf pre buf)).2 = .ub
    rw [toJsonTo, Sink.runCalls, hs]
    rcases h : ptrSink.run (ptrAt pre buf []) (opsVal w Δ 0 ty v).1 with ⟨p, r⟩
    rw [h] at hf
    cases hf
    rfl

example : (toJsonPtr {} exOutEnv (.ref 0) exOutVal (some (ptrOf [1] (List.replicate 34 9)))).2 = .ok () ∧
    (toJsonPtr {} exOutEnv (.ref 0) exOutVal (some (ptrOf [1] (List.replicate 33 9)))).2 = .ub := by decide +kernel

/-! ## C72: containers, iterators, strings -/

theorem appendTo {S : Sink Bytes} (h : ∀ out op, S.call out op = (out ++ opText op, .ok ())) (w : WCfg) (Δ : Env) (ty : Ty)
    (v : Val) (s : Bytes) :
    (∀ T, toJson w Δ ty v = .ok T → toJsonTo S w Δ ty v s = (s ++ T, .ok ())) ∧
    (∀ e, toJson w Δ ty v = .err e → ∃ P, toJsonTo S w Δ ty v s = (s ++ P, .err e)) := by
  have hr := opsVal_rep (A := False) (w := w) (Δ := Δ) 0 ty v False.elim
  refine ⟨fun T hT => ?_, fun e he => ?_⟩
  · have hT' : writeVal w Δ 0 ty v = .ok T := hT
    rw [toJsonTo, Sink.runCalls, appendRun h, hr.text T hT', hr.ends, hT']
    rfl
  · have he' : writeVal w Δ 0 ty v = .err e := he
    refine ⟨opsText (opsVal w Δ 0 ty v).1, ?_⟩
    rw [toJsonTo, Sink.runCalls, appendRun h, hr.ends, he']
    rfl

/-- **C72, in part.**  `to_json( value, out )` appends the text to a container, and gives it to an output iterator,
whatever they held before; if `value` cannot be written the error is the same for both, and what they held is still there.
The overload that returns a string returns the text, if no mapping is given.  Missing: that overload with a mapping, see
`C72_false_for_mapping`. -/
theorem C72_append_partial (w : WCfg) (Δ : Env) (ty : Ty) (v : Val) (s : Bytes) :
    (∀ T, toJson w Δ ty v = .ok T → toJsonTo contSink w Δ ty v s = (s ++ T, .ok ()) ∧
      toJsonTo iterSink w Δ ty v s = (s ++ T, .ok ()) ∧ toJsonString w Δ none ty v = (T, .ok ())) ∧
    (∀ e, toJson w Δ ty v = .err e → (∃ P, toJsonTo contSink w Δ ty v s = (s ++ P, .err e)) ∧
      (∃ P, toJsonTo iterSink w Δ ty v s = (s ++ P, .err e)) ∧ (toJsonString w Δ none ty v).2 = .err e) := by
  have h1 := appendTo contCall w Δ ty v s
  have h2 := appendTo iterCall w Δ ty v s
  have h3 := appendTo contCall w Δ ty v []
  refine ⟨fun T hT => ⟨h1.1 T hT, h2.1 T hT, ?_⟩, fun e he => ⟨h1.2 e he, h2.2 e he, ?_⟩⟩
  · have := h3.1 T hT
    rw [List.nil_append] at this
    exact this
  · obtain ⟨P, hP⟩ := h3.2 e he
    unfold toJsonString
    rw [hP]

example : (toJsonTo contSink {} exOutEnv (.ref 0) exOutVal [1, 2]).2 = .ok () ∧
    (toJsonTo iterSink {} exOutEnv (.ref 0) exOutBad [1, 2]).2 = .err .invalidStringHighASCII := by decide +kernel

/-- **C72 is false of the code** for the overload `to_json<JsonClass>( value, flags )`, and for
`to_json_array<JsonElement>( c )`: the mapping given is not used.  A string written as a member that escapes what is not
ASCII is not escaped. -/
theorem C72_false_for_mapping :
    ∃ (w : WCfg) (Δ : Env) (cls deduced : Ty) (v : Val),
      (toJsonInto w Δ (some cls) deduced v []).2 = .ok () ∧
      toJsonString w Δ (some cls) deduced v ≠ toJsonInto w Δ (some cls) deduced v [] ∧
      toJsonArrayString w Δ (some cls) deduced [v] ≠ toJsonArrayInto w Δ (some cls) deduced [v] [] :=
  ⟨{}, fun _ => .tup [] false, .str false, .str true, .str [0xC3, 0xA9], by decide +kernel, by decide +kernel,
    by decide +kernel⟩

/-! ## C73: streams -/

/-- **C73, in part.**  `to_json( value, file )` and `to_json( value, ostream )`, for a stream that accepts `room` more
characters: if the text fits it is appended and the call returns; if not, the characters that fit are appended and the call
throws `OutputError`.  An `ostream` whose state is not good is not written to and the call throws.  For both choices of
the sign of `char`.  Missing: where `char` is signed, text that is written as it is (raw strings, custom types, raw JSON),
is not ASCII, and goes to a `FILE *`, see `C73_false_for_raw_strings`. -/
theorem C73_stream_partial (w : WCfg) (Δ : Env) (ty : Ty) (v : Val) (T old : Bytes) (room : Nat)
    (hT : toJson w Δ ty v = .ok T) :
    (T.length ≤ room →
      (∀ sc, (sc = true → v.AsciiText) →
        toJsonTo (fileSink sc) w Δ ty v ⟨old, room, true⟩ = (⟨old ++ T, room - T.length, true⟩, .ok ())) ∧
      toJsonTo ostreamSink w Δ ty v ⟨old, room, true⟩ = (⟨old ++ T, room - T.length, true⟩, .ok ())) ∧
    (room < T.length →
      (∀ sc, (sc = true → v.AsciiText) →
        ∃ g, toJsonTo (fileSink sc) w Δ ty v ⟨old, room, true⟩ = (⟨old ++ T.take room, 0, g⟩, .err .outputError)) ∧
      (∃ g, toJsonTo ostreamSink w Δ ty v ⟨old, room, true⟩ = (⟨old ++ T.take room, 0, g⟩, .err .outputError))) ∧
    (T ≠ [] → toJsonTo ostreamSink w Δ ty v ⟨old, room, false⟩ = (⟨old, room, false⟩, .err .outputError)) := by
  have hr := opsVal_rep (A := v.AsciiText) (w := w) (Δ := Δ) 0 ty v id
  have hT' : writeVal w Δ 0 ty v = .ok T := hT
  have ht := hr.text T hT'
  have hs : (⟨old, room, true⟩ : Stream) = streamAt old room true [] := by simp [streamAt]
  have gen : ∀ S : Sink Stream, (∀ op ∈ (opsVal w Δ 0 ty v).1, StreamCall S op) →
      (T.length ≤ room → toJsonTo S w Δ ty v ⟨old, room, true⟩ = (⟨old ++ T, room - T.length, true⟩, .ok ())) ∧
      (room < T.length →
        ∃ g, toJsonTo S w Δ ty v ⟨old, room, true⟩ = (⟨old ++ T.take room, 0, g⟩, .err .outputError)) := by
    intro S hS
    have h := streamRun _ hS old room [] (by simp)
    rw [ht] at h
    simp only [List.length_nil, Nat.zero_add, List.nil_append] at h
    refine ⟨fun hl => ?_, fun hl => ?_⟩
    · rw [toJsonTo, Sink.runCalls, hs, h.1 hl, hr.ends, hT']
      simp [streamAt, Res.bind, List.take_of_length_le hl]
    · obtain ⟨g, hg⟩ := h.2 hl
      refine ⟨g, ?_⟩
      rw [toJsonTo, Sink.runCalls, hs, hg]
      simp [streamAt]
      omega
  have hfile := fun sc (ha : sc = true → v.AsciiText) => gen (fileSink sc) (fun op hop => fileCall sc op (fun hsc c hc => by
    simp only [List.mem_cons, List.not_mem_nil, or_false] at hc
    exact hr.ascii (ha hsc) c (hc ▸ hop)))
  have host := gen ostreamSink (fun op _ => ostreamCall op)
  refine ⟨fun hl => ⟨fun sc ha => (hfile sc ha).1 hl, host.1 hl⟩, fun hl => ⟨fun sc ha => (hfile sc ha).2 hl, host.2 hl⟩,
    fun hne => ?_⟩
  have hbad : ∀ b, ostreamTake ⟨old, room, false⟩ b = ⟨old, room, false⟩ := fun b => rfl
  have hpieces : ∀ ps : List Bytes, ostreamPieces ⟨old, room, false⟩ ps =
      (⟨old, room, false⟩, if ps.flatten = [] then .ok () else .err .outputError) := by
    intro ps
    induction ps with
    | nil => rfl
    | cons b bs ih =>
      unfold ostreamPieces
      cases b with
      | nil => simpa using ih
      | cons x xs => simp [hbad]
  have hcall : ∀ op, ostreamSink.call ⟨old, room, false⟩ op =
      (⟨old, room, false⟩, if opText op = [] then .ok () else .err .outputError) := by
    intro op
    cases op with
    | write ps => exact hpieces ps
    | put c => rfl
  have hrun : ∀ ops, ostreamSink.run ⟨old, room, false⟩ ops =
      (⟨old, room, false⟩, if opsText ops = [] then .ok () else .err .outputError) := by
    intro ops
    induction ops with
    | nil => rfl
    | cons op ops ih =>
      rw [Sink.run, hcall]
      by_cases h : opText op = []
      · simp [h, ih, opsText]
      · simp [h, opsText]
  rw [toJsonTo, Sink.runCalls, hrun, ht]
  simp [hne]

example : (toJsonTo (fileSink true) {} exOutEnv (.ref 0) exOutVal ⟨[1], 34, true⟩).2 = .ok () ∧
    (toJsonTo ostreamSink {} exOutEnv (.ref 0) exOutVal ⟨[1], 33, true⟩).2 = .err .outputError := by decide +kernel

example : exOutVal.AsciiText := by simp [exOutVal, Val.AsciiText, AsciiTexts]

/-- **C73 is false of the code** for raw strings, custom types and raw JSON and a `FILE *`, where `char` is signed: text that is
not ASCII is not written, although there is room for it; an `ostream` takes it. -/
theorem C73_false_for_raw_strings (k : TxtKind) (hk : k ≠ .date) (hr : ∀ dbl fmt, k ≠ .real dbl fmt)
    (hq : ∀ al l, k ≠ .quoted al l) (hk' : k ≠ .rawStr false) :
    ∃ (v : Val) (T : Bytes) (f : Stream), toJson {} (fun _ => .tup [] false) (.txt k) v = .ok T ∧ T.length ≤ f.room ∧
      (toJsonTo (fileSink true) {} (fun _ => .tup [] false) (.txt k) v f).2 = .err .outputError ∧
      toJsonTo ostreamSink {} (fun _ => .tup [] false) (.txt k) v f =
        (⟨f.content ++ T, f.room - T.length, true⟩, .ok ()) := by
  match k with
  | .rawStr true => exact ⟨.txt [0xC3, 0xA9], [0x22, 0xC3, 0xA9, 0x22], ⟨[], 100, true⟩, by decide +kernel, by decide +kernel,
      by decide +kernel, by decide +kernel⟩
  | .rawStr false => exact absurd rfl hk'
  | .date => exact absurd rfl hk
  | .real dbl fmt => exact absurd rfl (hr dbl fmt)
  | .quoted al l => exact absurd rfl (hq al l)
  | .custom .lit => exact ⟨.txt [0xC3, 0xA9], [0xC3, 0xA9], ⟨[], 100, true⟩, by decide +kernel, by decide +kernel,
      by decide +kernel, by decide +kernel⟩
  | .custom .str => exact ⟨.txt [0xC3, 0xA9], [0x22, 0xC3, 0xA9, 0x22], ⟨[], 100, true⟩, by decide +kernel, by decide +kernel,
      by decide +kernel, by decide +kernel⟩
  | .custom .any => exact ⟨.txt [0xC3, 0xA9], [0x22, 0xC3, 0xA9, 0x22], ⟨[], 100, true⟩, by decide +kernel, by decide +kernel,
      by decide +kernel, by decide +kernel⟩
  | .raw => exact ⟨.txt [0x22, 0xC3, 0xA9, 0x22], [0x22, 0xC3, 0xA9, 0x22], ⟨[], 100, true⟩, by decide +kernel, by decide +kernel,
      by decide +kernel, by decide +kernel⟩

/-! ## C74: `to_json_array` -/

theorem newlineOps_text (w : WCfg) : opsText (newlineOps w) = nextMember w 0 := by
  have := nextMemberOps_text w 0
  unfold nextMemberOps indentOps at this
  rwa [List.append_nil] at this

/-- The calls of `to_json_array` spell the text of `to_json`, without trailing commas. -/
theorem arrayCalls_rep (w : WCfg) (htc : w.tc = false) (Δ : Env) (ty : Ty) (vs : List Val) :
    Rep False (arrayCalls w Δ ty vs) (toJson w Δ (.arr ty) (.arr vs)) := by
  have hn : PutsAscii (if vs.isEmpty then [] else newlineOps w) ∧
      opsText (if vs.isEmpty then [] else newlineOps w) = closing w 0 vs.isEmpty := by
    unfold closing trailing
    split
    · exact ⟨putsAscii_nil, rfl⟩
    · exact ⟨newlineOps_ascii w, by rw [newlineOps_text]; simp [htc]⟩
  unfold arrayCalls
  refine Rep.congr (rep_pre (t := [chLBrack]) (putsAscii_put (by decide)) rfl
    (rep_post (t := closing w 0 vs.isEmpty ++ [chRBrack]) (putsAscii_append hn.1 (putsAscii_put (by decide))) ?_
      (opsElems_rep 1 ty vs False.elim))) ?_
  · rw [opsText_append, hn.2]
    rfl
  · rw [toJson, writeVal]
    cases writeElems w Δ 1 ty vs <;> simp

/-- **C74, in part.**  `to_json_array( c, out )` writes what `to_json( c, out )` writes for the same container, for every
format but trailing commas.  Missing: the trailing comma, see `C74_false_for_trailing_comma`. -/
theorem C74_array_partial (w : WCfg) (htc : w.tc = false) (Δ : Env) (ty : Ty) (vs : List Val) (s : Bytes) :
    (∀ T, toJson w Δ (.arr ty) (.arr vs) = .ok T → toJsonArrayTo contSink w Δ ty vs s = (s ++ T, .ok ()) ∧
      toJsonArrayString w Δ none ty vs = (T, .ok ())) ∧
    (∀ e, toJson w Δ (.arr ty) (.arr vs) = .err e → ∃ P, toJsonArrayTo contSink w Δ ty vs s = (s ++ P, .err e)) := by
  have hr := arrayCalls_rep w htc Δ ty vs
  have gen : ∀ T s, toJson w Δ (.arr ty) (.arr vs) = .ok T → toJsonArrayTo contSink w Δ ty vs s = (s ++ T, .ok ()) := by
    intro T s hT
    rw [toJsonArrayTo, Sink.runCalls, appendRun contCall, hr.text T hT, hr.ends, hT]
    rfl
  refine ⟨fun T hT => ⟨gen T s hT, ?_⟩, fun e he => ⟨opsText (arrayCalls w Δ ty vs).1, ?_⟩⟩
  · have := gen T [] hT
    rw [List.nil_append] at this
    exact this
  · rw [toJsonArrayTo, Sink.runCalls, appendRun contCall, hr.ends, he]
    rfl

example : toJson { pretty := true } exOutEnv (.arr (.ref 0)) (.arr [exOutVal, exOutVal]) ≠ .ub ∧
    (toJsonArrayTo contSink { pretty := true } exOutEnv (.ref 0) [exOutVal, exOutVal] []).2 = .ok () := by decide +kernel

/-- **C74 is false of the code** with `OutputTrailingComma::Yes`: `to_json` writes `[true,]`, `to_json_array` writes
`[true]`. -/
theorem C74_false_for_trailing_comma :
    ∃ (w : WCfg) (Δ : Env) (ty : Ty) (vs : List Val) (T : Bytes), toJson w Δ (.arr ty) (.arr vs) = .ok T ∧
      (toJsonArrayTo contSink w Δ ty vs []).2 = .ok () ∧ (toJsonArrayTo contSink w Δ ty vs []).1 ≠ T :=
  ⟨{ tc := true }, fun _ => .tup [] false, .bool, [.bool true], asc! "[true,]", by decide +kernel, by decide +kernel, by decide +kernel⟩

end Verif
