import Verif.Proof.CommentTypedMain
import Verif.Proof.TypedTop
import Verif.Props.Comments
import Verif.Props.Typed
import Verif.Spec.Ascii

/-!
# Property C107: reading typed values from texts with comments

Every theorem holds for a stack that is deep enough (`∃ f0, ∀ f ≥ f0`).
-/

namespace Verif

open Spec

/-! ## The last byte -/

theorem text_lastC {cc : UInt8} {G L : Bytes → Prop} {d : JVal} (hd : d.WFc cc G L) : d.text.getLast? ≠ some 0 := by
  match d with
  | .null | .tru | .fls => decide
  | .num t => exact fun h => number_ne_zero hd 0 (List.mem_of_getLast? h) rfl
  | .str b =>
    have : (JVal.str b).text = (0x22 :: b) ++ [0x22] := by simp [JVal.text]
    rw [this, List.getLast?_append]; simp
  | .arr w es =>
    have : ∃ x, (JVal.arr w es).text = x ++ [0x5D] := by
      match es with
      | .nil => exact ⟨0x5B :: w, by simp [JVal.text]⟩
      | .cons pre v post tl => exact ⟨0x5B :: (pre ++ (v.text ++ (post ++ (tl.text ++ w)))), by simp [JVal.text]⟩
    obtain ⟨x, hx⟩ := this
    rw [hx, List.getLast?_append]; simp
  | .obj w es =>
    have : ∃ x, (JVal.obj w es).text = x ++ [0x7D] := by
      match es with
      | .nil => exact ⟨0x7B :: w, by simp [JVal.text]⟩
      | .cons pre n pc qc v post tl =>
        exact ⟨0x7B :: (pre ++ (0x22 :: (n ++ (0x22 :: (pc ++ (0x3A :: (qc ++ (v.text ++ (post ++ (tl.text ++ w)))))))))),
          by simp [JVal.text]⟩
    obtain ⟨x, hx⟩ := this
    rw [hx, List.getLast?_append]; simp

theorem last_append {a b : Bytes} (ha : a.getLast? ≠ some 0) (hb : b.getLast? ≠ some 0) : (a ++ b).getLast? ≠ some 0 := by
  rw [List.getLast?_append]
  cases h : b.getLast? with
  | none => simpa using ha
  | some c => rw [h] at hb; simpa using hb

theorem last_cons {a : UInt8} {b : Bytes} (ha : a ≠ 0) (hb : b.getLast? ≠ some 0) : (a :: b).getLast? ≠ some 0 :=
  last_append (a := [a]) (by simpa using ha) hb

theorem isWsByte_ne_zero {c : UInt8} (h : isWsByte c) : c ≠ 0 := by
  rcases h with rfl | rfl | rfl | rfl <;> decide

theorem last_drop {x : UInt8} {t g : Bytes} (hx : x ≠ 0) (hg : g.getLast? ≠ some 0) : (t ++ x :: g).getLast? ≠ some 0 := by
  rw [List.getLast?_append_of_ne_nil _ (by simp)]
  exact last_cons hx hg

theorem hashGap_last {g : Bytes} (h : HashGap g) : g.getLast? ≠ some 0 := by
  induction h with
  | nil => simp
  | ws hc _ ih => exact last_cons (isWsByte_ne_zero hc) ih
  | comment _ _ ih => exact last_cons (by decide) (last_drop (by decide) ih)

theorem cppGap_last {B : Bytes → Bytes → Prop} {g : Bytes} (h : CppGapOf B g) : g.getLast? ≠ some 0 := by
  induction h with
  | nil => simp
  | ws hc _ ih => exact last_cons (isWsByte_ne_zero hc) ih
  | line _ _ ih => exact last_cons (by decide) (last_cons (by decide) (last_drop (by decide) ih))
  | block _ _ _ ih =>
    exact last_cons (by decide) (last_cons (by decide) (last_drop (by decide) (last_cons (by decide) ih)))

/-! ## Reading -/

theorem fromJsonC_reads {p : Cmt} {G L : Bytes → Prop} (P : Pol p G L) (t : TCfg) (hck : t.cfg.checked = true) (Δ : Env)
    (henv : EnvOk Δ) (ty : Ty) (hq : Apart p G ∨ (∀ i, (Δ i).unquoted = true) ∧ ty.unquoted = true) (d : JVal) (v : Val)
    (hr : Reads Δ (Usable t) t.exactAll ty d v) (hw : d.WFc (cmtChar p) G L) (hf : d.Fits) (g : Bytes)
    (hg : Behind (cmtChar p) G d g) (hl : g.getLast? ≠ some 0) (he : g = [] → EndsWell d v) :
    ∃ f0, ∀ f, f0 ≤ f → fromJsonC p t Δ f ty (d.text ++ g) = .ok v := by
  obtain ⟨f0, hf0⟩ := reads_semC P hck (hq.imp_right And.left) henv usable_nameOk rfl hr ⟨hw, hf.depth, hf.size⟩ (hq.imp_right And.right)
  refine ⟨f0, fun f hf => ?_⟩
  obtain ⟨r, h1, h2⟩ := (hf0 f hf).1 g [] hg (Or.inl rfl) (by simpa using he)
  rw [List.append_nil] at h1
  unfold fromJsonC
  simp only [text_ne_emptyC hw g, Bool.not_false, ensure_true, Res.ok_bind, if_neg (last_append (text_lastC hw) hl), h1,
    P.trim_rest hg.1 (Or.inl rfl) h2, List.isEmpty_nil, ite_self]

/-- **C107, hash comments, partial.**  With `HashCommentParsePolicy` and checks, `from_json<T>` gives the value that the document means
(`Reads`, which for texts without comments is what the default policy gives, C50), whatever comments from `#` to the end of the line stand
between its tokens and behind it, for all types of the model but quoted booleans and integers.  Missing, as the code is false there: comments right behind numbers and `null`, and comments after whitespace behind `[`. -/
theorem C107_hash_reads_partial (t : TCfg) (hck : t.cfg.checked = true) (Δ : Env) (henv : EnvOk Δ) (hq : ∀ i, (Δ i).unquoted = true)
    (ty : Ty) (hty : ty.unquoted = true) (d : JVal) (v : Val) (hr : Reads Δ (Usable t) t.exactAll ty d v)
    (hw : d.WFc 0x23 HashGap HashLead) (hf : d.Fits) (g : Bytes) (hg : Behind 0x23 HashGap d g) (he : g = [] → EndsWell d v) :
    ∃ f0, ∀ f, f0 ≤ f → fromJsonC .hash t Δ f ty (d.text ++ g) = .ok v :=
  fromJsonC_reads polHash t hck Δ henv ty (Or.inr ⟨hq, hty⟩) d v hr hw hf g hg (hashGap_last hg.1) he

/-- **C107, C++ comments, partial.**  The same with `CppCommentParsePolicy`, for comments from `//` to the end of the line and comments from `/*` to `*/`; the latter without stars and slashes in them and with two bytes of whitespace behind them (the code is false otherwise, C42). -/
theorem C107_cpp_reads_partial (t : TCfg) (hck : t.cfg.checked = true) (Δ : Env) (henv : EnvOk Δ) (hq : ∀ i, (Δ i).unquoted = true)
    (ty : Ty) (hty : ty.unquoted = true) (d : JVal) (v : Val) (hr : Reads Δ (Usable t) t.exactAll ty d v)
    (hw : d.WFc 0x2F (CppGapOf SimpleBlock) (CppLeadOf SimpleBlock)) (hf : d.Fits) (g : Bytes)
    (hg : Behind 0x2F (CppGapOf SimpleBlock) d g) (he : g = [] → EndsWell d v) :
    ∃ f0, ∀ f, f0 ≤ f → fromJsonC .cpp t Δ f ty (d.text ++ g) = .ok v :=
  fromJsonC_reads polCpp t hck Δ henv ty (Or.inr ⟨hq, hty⟩) d v hr hw hf g hg (cppGap_last hg.1) he

/-- A gap that does not start with a comment: comments come after whitespace. -/
def Spec.AfterWs (cc : UInt8) (G : Bytes → Prop) (g : Bytes) : Prop := G g ∧ g.head? ≠ some cc

theorem polApart {p : Cmt} {G L : Bytes → Prop} (P : Pol p G L) (hws : ∀ w, IsWs w → L w) : Pol p (AfterWs (cmtChar p) G) IsWs where
  nil := ⟨P.nil, by simp⟩
  head h := P.head h.1
  trim r h := P.trim r h.1
  loop k hk ps s cnt g cs h := P.loop k hk ps s cnt g cs h.1
  lead {g} h := by
    refine ⟨P.lead (hws _ h), ?_⟩
    cases g with
    | nil => simp
    | cons c g =>
      have hc : isWsByte c := h c (by simp)
      rcases hc with rfl | rfl | rfl | rfl <;> cases p <;> simp [cmtChar]
  leadTrim r h hx hc := P.leadTrim r (hws _ h) hx hc

theorem apart_afterWs {p : Cmt} {G : Bytes → Prop} : Apart p (AfterWs (cmtChar p) G) := fun _ h => h.2

/-- **C107, hash comments, all types, partial.**  With `HashCommentParsePolicy` and checks, `from_json<T>` gives the value that the document means, for all types of
the model, if every comment stands behind whitespace and none in front of the first element of an array. -/
theorem C107_hash_all_types_partial (t : TCfg) (hck : t.cfg.checked = true) (Δ : Env) (henv : EnvOk Δ) (ty : Ty) (d : JVal) (v : Val)
    (hr : Reads Δ (Usable t) t.exactAll ty d v) (hw : d.WFc 0x23 (AfterWs 0x23 HashGap) IsWs) (hf : d.Fits) (g : Bytes)
    (hg : AfterWs 0x23 HashGap g) (he : g = [] → EndsWell d v) : ∃ f0, ∀ f, f0 ≤ f → fromJsonC .hash t Δ f ty (d.text ++ g) = .ok v :=
  fromJsonC_reads (polApart polHash fun _ h => .ws h) t hck Δ henv ty (Or.inl apart_afterWs) d v hr hw hf g ⟨hg, fun _ => hg.2⟩ (hashGap_last hg.1) he

/-- **C107, C++ comments, all types, partial.**  The same with `CppCommentParsePolicy` and the comments of `C107_cpp_reads_partial`. -/
theorem C107_cpp_all_types_partial (t : TCfg) (hck : t.cfg.checked = true) (Δ : Env) (henv : EnvOk Δ) (ty : Ty) (d : JVal) (v : Val)
    (hr : Reads Δ (Usable t) t.exactAll ty d v) (hw : d.WFc 0x2F (AfterWs 0x2F (CppGapOf SimpleBlock)) IsWs) (hf : d.Fits) (g : Bytes)
    (hg : AfterWs 0x2F (CppGapOf SimpleBlock) g) (he : g = [] → EndsWell d v) :
    ∃ f0, ∀ f, f0 ≤ f → fromJsonC .cpp t Δ f ty (d.text ++ g) = .ok v :=
  fromJsonC_reads (polApart polCpp fun _ h => .ws h) t hck Δ henv ty (Or.inl apart_afterWs) d v hr hw hf g ⟨hg, fun _ => hg.2⟩ (cppGap_last hg.1) he

/-- **C107 is false of the code** for an unsigned number in quotes with a comment right behind it; behind a signed one it is skipped. -/
theorem C107_false_behind_quoted :
    fromJsonC .hash {} exEnv 9 (.arr (.txt (.quoted true (.int ⟨32, false⟩ false)))) (asc! "[\"1\"#c\n]") = .err .invalidEndOfValue ∧
    fromJsonC .hash {} exEnv 9 (.arr (.txt (.quoted true (.int ⟨32, true⟩ false)))) (asc! "[\"1\"#c\n]") = .ok (.arr [.lit (.int 1)]) := by
  decide +kernel

/-! ### Non-vacuity

`["1" #]"⏎ ]`, an array of unsigned numbers in quotes. -/

theorem exOneQ_numeral : IsNumeral [0x31] 1 :=
  ⟨Or.inr ⟨⟨by simp, by simp [IsDig, UInt8.le_iff_toNat_le]⟩, by simp⟩, by decide⟩

theorem exOne_body : IsStrBody [0x31] := by simpa using isStrBody_plain (l := [0x31]) (by unfold IsPlain; decide) .nil

example : ∃ f0, ∀ f, f0 ≤ f → fromJsonC .hash {} exEnv f (.arr (.txt (.quoted true (.int ⟨32, false⟩ false))))
    ((JVal.arr [] (.cons [0x20] (.str [0x31]) (0x20 :: exHash) .nil)).text ++ []) = .ok (.arr [.lit (.int 1)]) :=
  C107_hash_all_types_partial {} rfl exEnv exEnv_ok _ _ _
    (.arr (by simp) (.cons (.txt (.quoted (.int (by decide) (by decide) exOneQ_numeral))) .nil))
    ⟨rfl, by simp [IsWs, isWsByte], exOne_body, ⟨⟨.ws (by simp [isWsByte]) exHash_gap, by simp⟩, by simp⟩, trivial⟩
    ⟨by decide, by decide⟩ [] ⟨.nil, by simp⟩ (fun _ => ⟨rfl, by simp [Val.bareReal]⟩)

/-! `{"x"⟨c⟩:[⟨c⟩7 ⟨c⟩]⟨c⟩, "a":⟨c⟩-12 ⟨c⟩}⟨c⟩` with `⟨c⟩` a comment, for the class `S` of `Props/Typed.lean`. -/

/-- The document with a given comment. -/
def exCDoc (c : Bytes) : JVal :=
  .obj [] (.cons c [0x78] c [] (.arr [] (.cons c (.num [0x37]) (0x20 :: c) .nil)) c
    (.cons [0x20] [0x61] [] c exNum (0x20 :: c) .nil))

theorem exCDoc_reads (c : Bytes) : Reads exEnv (Usable {}) false (.ref 0) (exCDoc c) (.cls [.int (-12), .none, .none]) := by
  refine .obj (ms := exMs) (ex := false) rfl ?_ ?_ (by simp) ?_
  · intro n hn
    have : n = [0x78] ∨ n = [0x61] := by simpa [JMems.names, JMems.toList] using hn
    rcases this with rfl | rfl <;> exact exUsable _ (by simp)
  · intro m hm
    simp only [exMs, List.mem_cons, List.not_mem_nil, or_false] at hm
    rcases hm with rfl | rfl | rfl <;> simp [JMems.names, JMems.toList]
  · refine .found (d := exNum) rfl (.int (by decide) (by decide) exNum_numeral) ?_
    exact .absent (by simp [JMems.get?, JMems.toList]) rfl (.absent (by simp [JMems.get?, JMems.toList]) rfl .nil)

theorem exEnv_unquoted (i : Nat) : (exEnv i).unquoted = true := by show Shape.unquoted (.obj exMs false) = true; decide

/-- `#]"⏎ ` is also a gap that may stand behind `[`. -/
theorem exHash_lead : HashLead exHash := .comment (t := [0x5D, 0x22]) (by decide) (.ws (by simp [IsWs, isWsByte]))

theorem exCDoc_hash : (exCDoc exHash).WFc 0x23 HashGap HashLead :=
  have hs : HashGap (0x20 :: exHash) := .ws (by simp [isWsByte]) exHash_gap
  ⟨rfl, exHash_gap, name1_wf (by decide) (by decide) (by decide), exHash_gap, .nil,
    ⟨rfl, exHash_lead, num1_wf (by constructor <;> decide) (by decide), ⟨hs, by simp⟩, trivial⟩, ⟨exHash_gap, by simp [JVal.tight]⟩,
    .ws (by simp [isWsByte]) .nil, name1_wf (by decide) (by decide) (by decide), .nil, exHash_gap, exNum_wf, ⟨hs, by simp⟩, trivial⟩

example : ∃ f0, ∀ f, f0 ≤ f →
    fromJsonC .hash {} exEnv f (.ref 0) ((exCDoc exHash).text ++ exHash) = .ok (.cls [.int (-12), .none, .none]) :=
  C107_hash_reads_partial {} rfl exEnv exEnv_ok exEnv_unquoted (.ref 0) rfl _ _ (exCDoc_reads exHash) exCDoc_hash
    ⟨by decide, by decide⟩ exHash ⟨exHash_gap, by simp [exCDoc, JVal.tight]⟩ (by simp [exHash])

/-- `/*]*/  ` -/
def exBlock : Bytes := [0x2F, 0x2A, 0x5D, 0x2A, 0x2F, 0x20, 0x20]

theorem exBlock_simple : SimpleBlock [0x5D] [0x20, 0x20] :=
  ⟨by decide, by decide, 0x20, 0x20, [], rfl, by simp [isWsByte], by simp [isWsByte]⟩

theorem exBlock_gap : CppGapOf SimpleBlock exBlock :=
  .block (t := [0x5D]) (by simp [NoClose]) exBlock_simple (.ws (by simp [isWsByte]) (.ws (by simp [isWsByte]) .nil))

theorem exBlock_lead : CppLeadOf SimpleBlock exBlock :=
  .block (t := [0x5D]) (by simp [NoClose]) exBlock_simple (.ws (by simp [IsWs, isWsByte]))

theorem exCDoc_cpp : (exCDoc exBlock).WFc 0x2F (CppGapOf SimpleBlock) (CppLeadOf SimpleBlock) :=
  have hs : CppGapOf SimpleBlock (0x20 :: exBlock) := .ws (by simp [isWsByte]) exBlock_gap
  ⟨rfl, exBlock_gap, name1_wf (by decide) (by decide) (by decide), exBlock_gap, .nil,
    ⟨rfl, exBlock_lead, num1_wf (by constructor <;> decide) (by decide), ⟨hs, by simp⟩, trivial⟩, ⟨exBlock_gap, by simp [JVal.tight]⟩,
    .ws (by simp [isWsByte]) .nil, name1_wf (by decide) (by decide) (by decide), .nil, exBlock_gap, exNum_wf, ⟨hs, by simp⟩, trivial⟩

example : ∃ f0, ∀ f, f0 ≤ f →
    fromJsonC .cpp {} exEnv f (.ref 0) ((exCDoc exBlock).text ++ exBlock) = .ok (.cls [.int (-12), .none, .none]) :=
  C107_cpp_reads_partial {} rfl exEnv exEnv_ok exEnv_unquoted (.ref 0) rfl _ _ (exCDoc_reads exBlock) exCDoc_cpp
    ⟨by decide, by decide⟩ exBlock ⟨exBlock_gap, by simp [exCDoc, JVal.tight]⟩ (by simp [exBlock])

/-! ## Where the property is false of the code -/

/-- **C107 is false of the code** behind `[`: after whitespace a comment is taken for the first element, as the whitespace is removed after the comments and only once. -/
theorem C107_false_behind_bracket :
    fromJsonC .hash {} exEnv 9 (.arr (.int exI32 false)) (asc! "[ #c\n1]") = .err .invalidNumberStart ∧
    fromJsonC .cpp {} exEnv 9 (.arr (.int exI32 false)) (asc! "[ //c\n1]") = .err .invalidNumberStart ∧
    fromJsonC .hash {} exEnv 9 (.arr (.int exI32 false)) (asc! "[#c\n 1]") = .ok (.arr [.int 1]) := by decide +kernel

/-- **C107 is false of the code** right behind numbers and `null`: a comment there is accepted behind signed integers only. -/
theorem C107_false_right_behind :
    fromJsonC .hash {} exEnv 9 (.arr (.int ⟨32, false⟩ false)) (asc! "[1#c\n]") = .err .invalidEndOfValue ∧
    fromJsonC .cpp {} exEnv 9 (.arr (.int ⟨32, false⟩ false)) (asc! "[1//c\n]") = .err .invalidEndOfValue ∧
    fromJsonC .hash {} exEnv 9 (.arr (.opt .bool)) (asc! "[null#c\n]") = .err .invalidLiteral ∧
    fromJsonC .cpp {} exEnv 9 (.arr (.opt .bool)) (asc! "[null/*c*/  ]") = .err .invalidLiteral ∧
    fromJsonC .hash {} exEnv 9 (.arr (.int exI32 false)) (asc! "[1#c\n]") = .ok (.arr [.int 1]) := by decide +kernel

/-- A class with one string. -/
def exStrEnv : Env := fun _ => .obj [⟨[0x61], .str false⟩] false

/-- **Checked parsing with comments reads past the end** of a malformed text: leaving the class, `move_to_next_of` looks at the next byte
before it asks whether there is one.  Without comments the text is rejected. -/
theorem C107_reads_past_the_end :
    fromJsonC .hash {} exStrEnv 9 (.ref 0) (asc! "{\"a\":\"q\"x") = .ub ∧
    fromJsonC .cpp {} exStrEnv 9 (.ref 0) (asc! "{\"a\":\"q\"x") = .ub ∧
    fromJson {} exStrEnv 9 (.ref 0) (asc! "{\"a\":\"q\"x") = .err .unexpectedEndOfData := by decide +kernel

end Verif
