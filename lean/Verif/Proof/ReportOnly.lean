import Verif.Proof.ReportIn

/-!
# Every `missing_member` has a name

First which functions throw none at all, then that no other exception is taken for one.
-/

namespace Verif

/-- Not an exception about a missing member. -/
structure NM {α : Type} (r : Res α) : Prop where
  ne : r ≠ .err .missingMember

theorem NM.ok {α : Type} (a : α) : NM (.ok a) := ⟨by simp⟩
theorem NM.ub {α : Type} : NM (.ub : Res α) := ⟨by simp⟩
theorem NM.err {α : Type} {e : Err} (h : e ≠ .missingMember) : NM (.err e : Res α) := ⟨by simp [h]⟩
theorem NM.bind {α β : Type} {x : Res α} {f : α → Res β} (h : NM x) (hf : ∀ a, NM (f a)) : NM (x >>= f) := by
  cases x with
  | ok a => exact hf a
  | err e => exact ⟨fun h' => h.ne (by simpa using h')⟩
  | ub => exact ⟨by simp⟩
theorem NM.bind' {α β : Type} {x : Res α} {f : α → Res β} (h : NM x) (hf : ∀ a, NM (f a)) : NM (x.bind f) := NM.bind h hf
theorem NM.ensure {b : Bool} {e : Err} (h : e ≠ .missingMember) : NM (ensure b e) := by
  cases b
  · exact NM.err h
  · exact NM.ok _
theorem NM.assertWeak {k b : Bool} {e : Err} (h : e ≠ .missingMember) : NM (assertWeak k b e) := by
  cases k
  · exact ⟨by simp [Verif.assertWeak]⟩
  · exact NM.ensure h
theorem NM.deref {b : Bytes} : NM (deref b) := by cases b <;> exact ⟨by simp [Verif.deref]⟩

theorem NM.whenChecked {cfg : Cfg} {m : Res Unit} (h : NM m) : NM (whenChecked cfg m) := by
  unfold Verif.whenChecked
  split
  · exact h
  · exact NM.ok _

/-- Goes through the body of a function. -/
syntax "nm" "[" term,* "]" : tactic
macro_rules
  | `(tactic| nm [$ts,*]) => do
    let ts := ts.getElems
    `(tactic| repeat' first
    | assumption
    | with_reducible exact NM.ok _
    | with_reducible exact NM.ub
    | with_reducible exact NM.deref
    | (with_reducible refine NM.err ?_); decide
    | (with_reducible refine NM.ensure ?_); decide
    | (with_reducible refine NM.assertWeak ?_); decide
    | with_reducible first $[| exact $ts]*
    | with_reducible refine NM.bind ?_ ?_
    | with_reducible refine NM.bind' ?_ ?_
    | with_reducible intro _
    | split
    | with_reducible apply_assumption -exfalso -symm
    | with_reducible refine NM.whenChecked ?_
    | dsimp only)

theorem nm_trimUnchecked : ∀ {a1}, NM (trimUnchecked a1)
  | [] => NM.ub
  | c :: cs => by
    unfold trimUnchecked
    split
    · exact nm_trimUnchecked
    · exact NM.ok _

theorem nm_eatBool {a1 a2} : NM (@eatBool a1 a2) := by
  unfold eatBool
  nm [NM.ub]

theorem nm_trim {a1 a2} : NM (@trim a1 a2) := by
  unfold trim
  nm [nm_trimUnchecked]

theorem nm_parseBool {a1 a2} : NM (@parseBool a1 a2) := by
  unfold parseBool
  nm [nm_eatBool, nm_trim]

theorem nm_validateSignedFirst {a1 a2} : NM (@validateSignedFirst a1 a2) := by
  unfold validateSignedFirst
  nm [NM.ub]

theorem nm_narrowUnsigned {a1 a2} : NM (@narrowUnsigned a1 a2) := by
  unfold narrowUnsigned
  nm [NM.ub]

theorem nm_unsignedNotKnown {a1 a2 a3 a4} : NM (@unsignedNotKnown a1 a2 a3 a4) := by
  unfold unsignedNotKnown
  nm [nm_narrowUnsigned]

theorem nm_parseSigned {a1 a2 a3 a4} : NM (@parseSigned a1 a2 a3 a4) := by
  unfold parseSigned
  nm [nm_trim, nm_validateSignedFirst, nm_unsignedNotKnown]

theorem nm_parseUnsigned {a1 a2 a3 a4} : NM (@parseUnsigned a1 a2 a3 a4) := by
  unfold parseUnsigned
  nm [nm_unsignedNotKnown]

theorem nm_parseInt {a1 a2 a3 a4} : NM (@parseInt a1 a2 a3 a4) := by
  unfold parseInt
  nm [nm_parseSigned, nm_parseUnsigned]

theorem nm_nqScanExcl {a1 a2 a3} : NM (@nqScanExcl a1 a2 a3) := by
  fun_induction @nqScanExcl a1 a2 a3 <;> nm [NM.ub]

theorem nm_parseNqCheck {a1 a2} : NM (@parseNqCheck a1 a2) := by
  unfold parseNqCheck
  nm [nm_nqScanExcl]

theorem nm_nqScanUnchecked {a1 a2 a3} : NM (@nqScanUnchecked a1 a2 a3) := by
  fun_induction @nqScanUnchecked a1 a2 a3 <;> nm [NM.ub]

theorem nm_parseNqUncheck {a1} : NM (@parseNqUncheck a1) := by
  unfold parseNqUncheck
  nm [nm_nqScanUnchecked]

theorem nm_parseNq {a1 a2} : NM (@parseNq a1 a2) := by
  unfold parseNq
  nm [nm_parseNqCheck, nm_parseNqUncheck]

theorem nm_skipStringNq {a1 a2} : NM (@skipStringNq a1 a2) := by
  unfold skipStringNq
  nm [nm_parseNq]

theorem nm_skipString {a1 a2 a3} : NM (@skipString a1 a2 a3) := by
  unfold skipString
  nm [nm_skipStringNq]

theorem nm_strMore {a1 a2 a3} : NM (@strMore a1 a2 a3) := by
  unfold strMore
  nm [NM.ub]

theorem nm_put {a1 a2 a3} : NM (@put a1 a2 a3) := by
  unfold put
  nm [NM.ub]

theorem nm_byteFromNibbles {a1 a2} : NM (@byteFromNibbles a1 a2) := by
  unfold byteFromNibbles
  nm [NM.ub]

theorem nm_fourNibbles {a1 a2} : NM (@fourNibbles a1 a2) := by
  unfold fourNibbles
  nm [nm_byteFromNibbles]

theorem nm_decodeUtf16 {a1 a2 a3} : NM (@decodeUtf16 a1 a2 a3) := by
  unfold decodeUtf16
  nm [nm_fourNibbles]

theorem nm_decodeEscape {a1 a2 a3 a4} : NM (@decodeEscape a1 a2 a3 a4) := by
  unfold decodeEscape
  nm [nm_decodeUtf16]

theorem nm_strStep {a1 a2 a3 a4 a5 a6 a7} : NM (@strStep a1 a2 a3 a4 a5 a6 a7) := by
  unfold strStep
  nm [nm_put, nm_decodeEscape]

theorem nm_strLoop {a1 a2 a3 a4 a5 a6 a7} : NM (@strLoop a1 a2 a3 a4 a5 a6 a7) := by
  fun_induction @strLoop a1 a2 a3 a4 a5 a6 a7 with
  | case1 => exact .ub
  | case2 _ _ e h => exact ⟨fun h' => nm_strMore.ne (h.trans (by simpa using h'))⟩
  | case3 => exact .ok _
  | case4 => exact .ub
  | case5 _ _ _ e h => exact ⟨fun h' => nm_strStep.ne (h.trans (by simpa using h'))⟩
  | case6 _ _ _ _ _ _ ih => exact ih

theorem nm_parseStdString {a1 a2 a3 a4 a5} : NM (@parseStdString a1 a2 a3 a4 a5) := by
  unfold parseStdString
  nm [nm_strLoop]

theorem nm_parseStrRange {a1 a2 a3 a4} : NM (@parseStrRange a1 a2 a3 a4) := by
  unfold parseStrRange
  nm [nm_parseStdString]

theorem nm_parseStr {a1 a2 a3} : NM (@parseStr a1 a2 a3) := by
  unfold parseStr
  nm [nm_skipString, nm_parseStrRange]

theorem nm_parseTwo {a1} : NM (@parseTwo a1) := by
  unfold parseTwo
  nm [NM.ub]

theorem nm_popBackTwo {a1} : NM (@popBackTwo a1) := by
  unfold popBackTwo
  nm [nm_parseTwo]

theorem nm_dropSepBack {a1} : NM (@dropSepBack a1) := by
  unfold dropSepBack
  nm [NM.ub]

theorem nm_parseDigits {a1 a2 a3} : NM (@parseDigits a1 a2 a3) := by
  fun_induction @parseDigits a1 a2 a3 <;> nm [NM.ub]

theorem nm_parseYear {a1} : NM (@parseYear a1) := by
  unfold parseYear
  nm [nm_parseDigits]

theorem nm_parseIsoDate {a1} : NM (@parseIsoDate a1) := by
  unfold parseIsoDate
  nm [nm_popBackTwo, nm_dropSepBack, nm_parseYear]

theorem nm_popFrontTwo {a1} : NM (@popFrontTwo a1) := by
  unfold popFrontTwo
  nm [nm_parseTwo]

theorem nm_dropSepFront {a1} : NM (@dropSepFront a1) := by
  unfold dropSepFront
  nm [NM.ub]

theorem nm_parseFrac {a1} : NM (@parseFrac a1) := by
  unfold parseFrac
  nm [nm_parseDigits]

theorem nm_parseIsoSecond {a1} : NM (@parseIsoSecond a1) := by
  unfold parseIsoSecond
  nm [nm_popFrontTwo, nm_dropSepFront, nm_parseFrac]

theorem nm_parseIsoTime {a1} : NM (@parseIsoTime a1) := by
  unfold parseIsoTime
  nm [nm_popFrontTwo, nm_dropSepFront, nm_parseIsoSecond]

theorem nm_applyZone {a1 a2 a3} : NM (@applyZone a1 a2 a3) := by
  unfold applyZone
  nm [nm_parseTwo]

theorem nm_parseTimestamp {a1} : NM (@parseTimestamp a1) := by
  unfold parseTimestamp
  nm [nm_parseIsoDate, nm_parseIsoTime, nm_applyZone]

theorem nm_parseDate {a1 a2} : NM (@parseDate a1 a2) := by
  unfold parseDate
  nm [nm_skipString, nm_parseTimestamp]

theorem nm_eatLiteral {a1 a2 a3 a4} (h : a2 ≠ .missingMember) : NM (@eatLiteral a1 a2 a3 a4) := by
  unfold eatLiteral
  nm [NM.err h]

theorem nm_endOfLiteral {a1 a2 a3} (h : a2 ≠ .missingMember) : NM (@endOfLiteral a1 a2 a3) := by
  unfold endOfLiteral
  exact .bind nm_trim fun _ => .bind (.assertWeak h) fun _ => .ok _

theorem nm_skipTrue {a1 a2} : NM (@skipTrue a1 a2) := by
  unfold skipTrue
  nm [nm_eatLiteral (by decide), nm_endOfLiteral (by decide)]

theorem nm_skipFalse {a1 a2} : NM (@skipFalse a1 a2) := by
  unfold skipFalse
  nm [nm_eatLiteral (by decide), nm_endOfLiteral (by decide)]

theorem nm_skipNull {a1 a2} : NM (@skipNull a1 a2) := by
  unfold skipNull
  nm [nm_eatLiteral (by decide), nm_endOfLiteral (by decide)]

theorem nm_skipDigitsUnchecked {a1} : NM (@skipDigitsUnchecked a1) := by
  fun_induction @skipDigitsUnchecked a1 <;> nm [NM.ub]

theorem nm_skipDigitsIf {a1 a2} : NM (@skipDigitsIf a1 a2) := by
  unfold skipDigitsIf
  nm [nm_skipDigitsUnchecked]

theorem nm_skipFrac {a1 a2} : NM (@skipFrac a1 a2) := by
  unfold skipFrac
  nm [nm_skipDigitsIf]

theorem nm_skipExp {a1 a2} : NM (@skipExp a1 a2) := by
  unfold skipExp
  nm [nm_skipDigitsIf]

theorem nm_skipNumber {a1 a2} : NM (@skipNumber a1 a2) := by
  unfold skipNumber
  nm [nm_skipDigitsIf, nm_skipFrac, nm_skipExp]

theorem nm_skipLiteral {a1 a2} : NM (@skipLiteral a1 a2) := by
  unfold skipLiteral
  nm [nm_skipTrue, nm_skipFalse, nm_skipNull, nm_skipNumber]

theorem nm_derefEnd {a1 a2} : NM (@derefEnd a1 a2) := by
  unfold derefEnd
  nm [NM.ub]

theorem nm_brLoop {a1 a2 a3 a4 a5} : NM (@brLoop a1 a2 a3 a4 a5) := by
  fun_induction @brLoop a1 a2 a3 a4 a5 <;> nm [NM.ub]

theorem nm_skipBracketedChecked {a1 a2} : NM (@skipBracketedChecked a1 a2) := by
  unfold skipBracketedChecked
  nm [nm_brLoop]

theorem nm_memSkipStrUnchecked {a1} : NM (@memSkipStrUnchecked a1) := by
  fun_induction @memSkipStrUnchecked a1 <;> nm [NM.ub]

theorem nm_brLoopUnchecked {a1 a2 a3 a4 a5} : NM (@brLoopUnchecked a1 a2 a3 a4 a5) := by
  fun_induction @brLoopUnchecked a1 a2 a3 a4 a5 <;> nm [nm_memSkipStrUnchecked]

theorem nm_skipBracketedUnchecked {a1 a2} : NM (@skipBracketedUnchecked a1 a2) := by
  unfold skipBracketedUnchecked
  nm [nm_brLoopUnchecked]

theorem nm_skipBracketed {a1 a2 a3} : NM (@skipBracketed a1 a2 a3) := by
  unfold skipBracketed
  nm [nm_skipBracketedChecked, nm_skipBracketedUnchecked]

theorem nm_skipValue {a1 a2 a3} : NM (@skipValue a1 a2 a3) := by
  unfold skipValue
  nm [nm_skipString, nm_skipTrue, nm_skipFalse, nm_skipNull, nm_skipNumber, nm_skipBracketed]

theorem nm_customText {a1 a2 a3} : NM (@customText a1 a2 a3) := by
  unfold customText
  nm [nm_skipString, nm_skipLiteral, nm_derefEnd, nm_skipValue]

theorem nm_customStart {a1 a2} : NM (@customStart a1 a2) := by
  unfold customStart
  nm [NM.ub]

theorem nm_parseCustom {a1 a2 a3} : NM (@parseCustom a1 a2 a3) := by
  unfold parseCustom
  nm [nm_customText, nm_customStart]

theorem nm_untilNonDigit {a1 a2 a3} : NM (@untilNonDigit a1 a2 a3) := by
  fun_induction @untilNonDigit a1 a2 a3 <;> nm [NM.ub]

theorem nm_digitsWhile {a1 a2 a3 a4} : NM (@digitsWhile a1 a2 a3 a4) := by
  unfold digitsWhile
  nm [nm_untilNonDigit]

theorem nm_skipDigitsR {a1 a2} : NM (@skipDigitsR a1 a2) := by
  unfold skipDigitsR
  nm [nm_untilNonDigit]

theorem nm_unkWhole {a1 a2} : NM (@unkWhole a1 a2) := by
  unfold unkWhole
  nm [nm_digitsWhile, nm_skipDigitsR]

theorem nm_derefZ {a1 a2} : NM (@derefZ a1 a2) := by
  unfold derefZ
  nm [NM.ub]

theorem nm_unkFracDigits {a1 a2 a3 a4 a5 a6} : NM (@unkFracDigits a1 a2 a3 a4 a5 a6) := by
  unfold unkFracDigits
  nm [nm_digitsWhile, nm_skipDigitsR]

theorem nm_unkFrac {a1 a2 a3 a4 a5 a6} : NM (@unkFrac a1 a2 a3 a4 a5 a6) := by
  unfold unkFrac
  nm [nm_derefZ, nm_unkFracDigits]

theorem nm_unkExpSign {a1 a2} : NM (@unkExpSign a1 a2) := by
  unfold unkExpSign
  nm [nm_derefZ]

theorem nm_unkExp {a1 a2} : NM (@unkExp a1 a2) := by
  unfold unkExp
  nm [nm_digitsWhile, nm_derefZ, nm_unkExpSign]

theorem nm_addExp {a1 a2 a3} : NM (@addExp a1 a2 a3) := by
  unfold addExp
  nm [NM.ub]

theorem nm_realUnknown {a1 a2} : NM (@realUnknown a1 a2) := by
  unfold realUnknown
  nm [nm_validateSignedFirst, nm_unkWhole, nm_unkFrac, nm_unkExp, nm_addExp]

theorem nm_parseReal {a1 a2 a3} : NM (@parseReal a1 a2 a3) := by
  unfold parseReal
  nm [nm_realUnknown]

theorem nm_skipQuote {a1 a2 a3} : NM (@skipQuote a1 a2 a3) := by
  unfold skipQuote
  nm [NM.ub]

theorem nm_parseBoolQ {a1 a2 a3} : NM (@parseBoolQ a1 a2 a3) := by
  unfold parseBoolQ
  nm [nm_eatBool, nm_trim, nm_skipQuote]

theorem nm_parseSignedQ {a1 a2 a3 a4 a5} : NM (@parseSignedQ a1 a2 a3 a4 a5) := by
  unfold parseSignedQ
  nm [nm_trim, nm_validateSignedFirst, nm_unsignedNotKnown, nm_skipQuote]

theorem nm_parseUnsignedQ {a1 a2 a3 a4 a5} : NM (@parseUnsignedQ a1 a2 a3 a4 a5) := by
  unfold parseUnsignedQ
  nm [nm_unsignedNotKnown, nm_skipQuote]

theorem nm_parseLit {a1 a2 a3 a4} : NM (@parseLit a1 a2 a3 a4) := by
  unfold parseLit
  nm [nm_parseBoolQ, nm_parseSignedQ, nm_parseUnsignedQ]

theorem nm_parseTxt {a1 a2 a3} : NM (@parseTxt a1 a2 a3) := by
  unfold parseTxt
  nm [nm_skipString, nm_parseDate, nm_skipValue, nm_parseCustom, nm_parseReal, nm_parseLit]

theorem nm_eatNull {a1 a2} : NM (@eatNull a1 a2) := by
  unfold eatNull
  nm [nm_trimUnchecked]

theorem nm_trimUncheckedEnd {a1 a2} : NM (@trimUncheckedEnd a1 a2) := by
  fun_induction @trimUncheckedEnd a1 a2 <;> nm [NM.ub]

theorem nm_moveNextUnchecked {a1} : NM (@moveNextUnchecked a1) := by
  unfold moveNextUnchecked
  nm [nm_trimUnchecked]

theorem nm_moveNext {a1 a2} : NM (@moveNext a1 a2) := by
  unfold moveNext
  nm [nm_moveNextUnchecked]

theorem nm_trimEndOfName {a1 a2} : NM (@trimEndOfName a1 a2) := by
  unfold trimEndOfName
  nm [nm_trim]

theorem nm_parseName {a1 a2} : NM (@parseName a1 a2) := by
  unfold parseName
  nm [nm_skipStringNq, nm_trimEndOfName]

theorem nm_moveNextMemberUnchecked {a1} : NM (@moveNextMemberUnchecked a1) := by
  unfold moveNextMemberUnchecked
  nm [NM.ub]

theorem nm_moveToNextClassMember {a1 a2} : NM (@moveToNextClassMember a1 a2) := by
  fun_induction @moveToNextClassMember a1 a2 <;> nm [NM.ub]

theorem nm_classCleanup {a1 a2 a3} : NM (@classCleanup a1 a2 a3) := by
  unfold classCleanup
  nm [nm_skipBracketed, nm_moveNext, nm_moveToNextClassMember]

theorem nm_atArrayEnd {a1 a2 a3} : NM (@atArrayEnd a1 a2 a3) := by
  unfold atArrayEnd
  nm [nm_derefEnd]

theorem nm_skipMembers {a1 a2 a3 a4} : NM (@skipMembers a1 a2 a3 a4) := by
  fun_induction @skipMembers a1 a2 a3 a4 <;> nm [nm_skipValue, nm_moveNext, nm_atArrayEnd]

theorem nm_maybeSkip {a1 a2 a3 a4 a5} : NM (@maybeSkip a1 a2 a3 a4 a5) := by
  unfold maybeSkip
  nm [nm_skipMembers]

theorem nm_altOfBase {a1 a2 a3} : NM (@altOfBase a1 a2 a3) := by
  unfold altOfBase
  nm [NM.ub]

theorem nm_altOfChar {a1 a2 a3 a4} : NM (@altOfChar a1 a2 a3 a4) := by
  unfold altOfChar
  nm [nm_altOfBase]

theorem nm_altOfTag {a1 a2 a3 a4} : NM (@altOfTag a1 a2 a3 a4) := by
  unfold altOfTag
  nm [NM.ub]

theorem nm_parseBoolKnown {a1 a2} : NM (@parseBoolKnown a1 a2) := by
  unfold parseBoolKnown
  nm [nm_derefEnd]

theorem nm_unsignedKnown {a1 a2 a3} : NM (@unsignedKnown a1 a2 a3) := by
  unfold unsignedKnown
  nm [nm_narrowUnsigned]

theorem nm_parseSignedKnown {a1 a2 a3 a4} : NM (@parseSignedKnown a1 a2 a3 a4) := by
  unfold parseSignedKnown
  nm [nm_validateSignedFirst, nm_derefEnd, nm_unsignedKnown]

theorem nm_validateUnsignedFirst {a1 a2} : NM (@validateUnsignedFirst a1 a2) := by
  unfold validateUnsignedFirst
  nm [nm_derefEnd]

theorem nm_parseUnsignedKnown {a1 a2 a3 a4} : NM (@parseUnsignedKnown a1 a2 a3 a4) := by
  unfold parseUnsignedKnown
  nm [nm_unsignedKnown, nm_validateUnsignedFirst]

theorem nm_parseIntKnown {a1 a2 a3 a4} : NM (@parseIntKnown a1 a2 a3 a4) := by
  unfold parseIntKnown
  nm [nm_parseSignedKnown, nm_parseUnsignedKnown]

theorem nm_parseDateKnown {a1 a2} : NM (@parseDateKnown a1 a2) := by
  unfold parseDateKnown
  nm [nm_parseTimestamp]

theorem nm_parseCustomKnown {a1 a2 a3} : NM (@parseCustomKnown a1 a2 a3) := by
  unfold parseCustomKnown
  nm [nm_customStart]

theorem nm_digitsKnown {a1 a2 a3 a4} : NM (@digitsKnown a1 a2 a3 a4) := by
  unfold digitsKnown
  nm [nm_untilNonDigit]

theorem nm_knownExp {a1 a2} : NM (@knownExp a1 a2) := by
  unfold knownExp
  nm [nm_untilNonDigit]

theorem nm_knownFrac {a1 a2 a3 a4} : NM (@knownFrac a1 a2 a3 a4) := by
  unfold knownFrac
  nm [nm_digitsKnown]

theorem nm_knownDigits {a1 a2 a3 a4 a5 a6 a7 a8} : NM (@knownDigits a1 a2 a3 a4 a5 a6 a7 a8) := by
  unfold knownDigits
  nm [nm_digitsKnown, nm_knownExp, nm_knownFrac]

theorem nm_realKnown {a1 a2 a3} : NM (@realKnown a1 a2 a3) := by
  unfold realKnown
  nm [nm_knownDigits]

theorem nm_parseRealKnown {a1 a2 a3 a4} : NM (@parseRealKnown a1 a2 a3 a4) := by
  unfold parseRealKnown
  nm [nm_realKnown]

theorem nm_parseLitKnown {a1 a2 a3} : NM (@parseLitKnown a1 a2 a3) := by
  unfold parseLitKnown
  nm [nm_parseBoolKnown, nm_parseIntKnown]

theorem nm_parseTxtKnown {a1 a2 a3 a4} : NM (@parseTxtKnown a1 a2 a3 a4) := by
  unfold parseTxtKnown
  nm [nm_parseDateKnown, nm_parseCustomKnown, nm_parseRealKnown, nm_parseLitKnown]

theorem nm_altOfRange {a1 a2 a3 a4} : NM (@altOfRange a1 a2 a3 a4) := by
  unfold altOfRange
  nm [nm_altOfBase, nm_altOfChar]

/-! ## The others -/

theorem NM.seq {α β : Type} {x : Res α} {f : α → Res β} (h : NM x) (hf : ∀ a, x = .ok a → NM (f a)) : NM (x >>= f) := by
  cases x with
  | ok a => exact hf a rfl
  | err e => exact ⟨fun h' => h.ne (by simpa using h')⟩
  | ub => exact .ub

theorem assertWeak_or {c b : Bool} {e : Err} {u : Unit} (h : assertWeak c b e = .ok u) : (!c || b) = true := by
  cases c <;> cases b <;> simp_all [assertWeak, ensure]

theorem assertWeak_and {c b : Bool} {e : Err} {u : Unit} (h : assertWeak c (!b) e = .ok u) : ¬ (c && b) = true := by
  cases c <;> cases b <;> simp_all [assertWeak, ensure]

section
variable {t : TCfg} {exact : Bool} {N : List Bytes} {pU : Ty → Bytes → Res (Val × Bytes)} {pK : Ty → Range → Bytes → Res Val}
  {qU : Ty → Bytes → Option Bytes} {qK : Ty → Range → Bytes → Option Bytes}
  (hU : ∀ ty b, qU ty b = none → NM (pU ty b)) (hK : ∀ ty r a, qK ty r a = none → NM (pK ty r a))
include hU hK

theorem memberMiss_none {pos : Nat} {m : Member} {locs : Locs} {bs : Bytes} (hm : ¬ memberMissing t exact N pos m locs bs = true)
    (h : memberMiss t exact N qU qK pos m locs bs = none) : NM (classMember t exact N pU pK pos m locs bs) := by
  unfold memberMissing at hm
  unfold memberMiss at h
  unfold classMember
  refine .seq nm_moveNext fun b hb => .seq (.assertWeak (by decide)) fun u hu => ?_
  rw [hb] at h hm
  dsimp only at h hm
  rw [if_pos (assertWeak_or hu)] at h
  rw [assertWeak_or hu, Bool.true_and] at hm
  refine .seq ⟨fun he => hm (by rw [he]; rfl)⟩ fun x hx => ?_
  obtain ⟨f, locs', b'⟩ := x
  rw [hx] at h hm
  dsimp only at h ⊢
  refine .bind ?_ fun _ => .ok _
  cases f with
  | here => exact hU _ _ h
  | known r a => exact .bind (hK _ _ _ h) fun _ => .ok _
  | absent =>
    cases ho : m.ty.isOpt with
    | true => exact .ok _
    | false => exact absurd (by simp [notFound, ho]) hm

theorem missMembers_none : ∀ (ms : List Member) (pos : Nat) (locs : Locs) (bs : Bytes), missMembers t exact N pU pK qU qK pos ms locs bs = none →
    NM (classMembers t exact N pU pK pos ms locs bs)
  | [], _, _, _, _ => by unfold classMembers; exact .ok _
  | m :: ms, pos, locs, bs, h => by
    unfold missMembers at h
    rw [classMembers_cons]
    by_cases hm : memberMissing t exact N pos m locs bs = true
    · rw [if_pos hm] at h; simp at h
    · rw [if_neg hm] at h
      cases hc : classMember t exact N pU pK pos m locs bs with
      | err e =>
        rw [hc] at h
        rw [← hc]
        refine .seq (memberMiss_none hU hK hm h) fun x hx => ?_
        rw [hc] at hx; simp at hx
      | ub => exact .ub
      | ok p =>
        obtain ⟨v, locs', b⟩ := p
        rw [hc] at h
        simp only [Res.ok_bind]
        exact .bind (missMembers_none ms (pos + 1) locs' b h) fun _ => .ok _

theorem missObj_none {ms : List Member} {bs : Bytes} (h : missObj t exact ms pU pK qU qK bs = none) : NM (parseObj t exact ms pU pK bs) := by
  unfold missObj at h
  unfold parseObj
  refine .seq nm_trim fun b hb => .seq (.assertWeak (by decide)) fun u hu => .seq nm_trim fun b' hb' => ?_
  rw [hb] at h
  dsimp only at h
  rw [if_pos (assertWeak_or hu), hb'] at h
  exact .bind (missMembers_none hU hK _ _ _ _ h) fun _ => .bind nm_classCleanup fun _ => .ok _
end

section
variable {cfg : Cfg} {p : Bytes → Res (Val × Bytes)} {q : Bytes → Option Bytes} (hq : ∀ b, q b = none → NM (p b))
include hq

theorem missArrLoop_none : ∀ (len : Nat) (bs : Bytes), bs.length ≤ len → missArrLoop cfg p q bs = none → NM (arrLoop cfg p bs) := by
  intro len
  induction len using Nat.strongRecOn with
  | _ len ih =>
    intro bs hl h
    unfold missArrLoop at h
    unfold arrLoop
    refine .seq (.assertWeak (by decide)) fun u hu => ?_
    rw [if_neg (assertWeak_and hu)] at h
    cases hp : p bs with
    | err e =>
      rw [hp] at h
      rw [← hp]
      refine .seq (hq _ h) fun x hx => ?_
      rw [hp] at hx; simp at hx
    | ub => exact .ub
    | ok x =>
      obtain ⟨v, b⟩ := x
      rw [hp] at h
      dsimp only [Res.ok_bind] at h ⊢
      refine .seq nm_trim fun b1 h1 => .seq (.assertWeak (by decide)) fun u2 h2 => .seq nm_moveNext fun b2 h3 => .seq (.assertWeak (by decide)) fun u4 h4 =>
        .seq .deref fun c h5 => ?_
      simp only [h1, h2, h3, h4, h5, Res.ok_bind] at h
      by_cases hc : c = chRBrack
      · rw [if_pos hc]; exact .ok _
      · rw [if_neg hc] at h ⊢
        by_cases hlt : b2.length < bs.length
        · rw [dif_pos hlt] at h ⊢
          exact .bind (ih b2.length (by omega) b2 (Nat.le_refl _) h) fun _ => .ok _
        · rw [dif_neg hlt]; exact .ub

theorem missArr_none {bs : Bytes} (h : missArr cfg p q bs = none) : NM (parseArr cfg p bs) := by
  unfold missArr at h
  unfold parseArr
  refine .seq nm_trim fun b1 h1 => .seq (.assertWeak (by decide)) fun u2 h2 => .seq nm_trimUncheckedEnd fun b2 h3 => .seq nm_derefEnd fun c h4 => ?_
  simp only [h1, h2, h3, h4, Res.ok_bind] at h
  by_cases hc : c = chRBrack
  · rw [if_pos hc]; exact .ok _
  · rw [if_neg hc] at h ⊢
    exact .bind (missArrLoop_none hq _ _ (Nat.le_refl _) h) fun _ => .ok _

theorem missMapLoop_none : ∀ (len : Nat) (bs : Bytes), bs.length ≤ len → missMapLoop cfg p q bs = none → NM (mapLoop cfg p bs) := by
  intro len
  induction len using Nat.strongRecOn with
  | _ len ih =>
    intro bs hl h
    unfold missMapLoop at h
    unfold mapLoop
    refine .seq (.assertWeak (by decide)) fun u hu => .seq nm_parseStr fun x hx => .seq nm_trimEndOfName fun b1 h1 => ?_
    obtain ⟨key, b0⟩ := x
    simp only [hu, hx, h1, Res.ok_bind] at h
    cases hp : p b1 with
    | err e =>
      rw [hp] at h
      rw [← hp]
      refine .seq (hq _ h) fun x hx => ?_
      rw [hp] at hx; simp at hx
    | ub => exact .ub
    | ok x =>
      obtain ⟨v, b⟩ := x
      rw [hp] at h
      dsimp only [Res.ok_bind] at h ⊢
      refine .seq nm_moveNext fun b2 h3 => .seq (.assertWeak (by decide)) fun u4 h4 => .seq .deref fun c h5 => ?_
      simp only [h3, h4, h5, Res.ok_bind] at h
      by_cases hc : c = chRBrace
      · rw [if_pos hc]; exact .ok _
      · rw [if_neg hc] at h ⊢
        by_cases hlt : b2.length < bs.length
        · rw [dif_pos hlt] at h ⊢
          exact .bind (ih b2.length (by omega) b2 (Nat.le_refl _) h) fun _ => .ok _
        · rw [dif_neg hlt]; exact .ub

theorem missMap_none {bs : Bytes} (h : missMap cfg p q bs = none) : NM (parseMap cfg p bs) := by
  unfold missMap at h
  unfold parseMap
  refine .seq (.assertWeak (by decide)) fun u1 h1 => .seq nm_trim fun b2 h2 => .seq (.ensure (by decide)) fun u3 h3 => .seq .deref fun c h4 => ?_
  simp only [h1, h2, h3, h4, Res.ok_bind] at h
  by_cases hc : c = chRBrace
  · rw [if_pos hc]; exact .ok _
  · rw [if_neg hc] at h ⊢
    exact .bind (missMapLoop_none hq _ _ (Nat.le_refl _) h) fun _ => .ok _
end

section
variable {cfg : Cfg} {pU : Ty → Bytes → Res (Val × Bytes)} {qU : Ty → Bytes → Option Bytes} (hU : ∀ ty b, qU ty b = none → NM (pU ty b))
include hU

theorem missTupMembers_none : ∀ (ts : List Ty) (bs : Bytes), missTupMembers cfg pU qU ts bs = none → NM (tupMembers cfg pU ts bs)
  | [], _, _ => by unfold tupMembers; exact .ok _
  | ty :: ts, bs, h => by
    unfold missTupMembers at h
    unfold tupMembers
    refine .seq (.assertWeak (by decide)) fun u hu => ?_
    rw [if_neg (assertWeak_and hu)] at h
    cases hp : pU ty bs with
    | err e =>
      rw [hp] at h
      rw [← hp]
      refine .seq (hU _ _ h) fun x hx => ?_
      rw [hp] at hx; simp at hx
    | ub => exact .ub
    | ok x =>
      obtain ⟨v, b⟩ := x
      rw [hp] at h
      dsimp only [Res.ok_bind] at h ⊢
      refine .seq nm_moveNext fun b2 h3 => ?_
      rw [h3] at h
      exact .bind (missTupMembers_none ts b2 h) fun _ => .ok _

theorem missTup_none {exact : Bool} {ts : List Ty} {bs : Bytes} (h : missTup cfg ts pU qU bs = none) : NM (parseTup cfg exact ts pU bs) := by
  unfold missTup at h
  unfold parseTup
  refine .seq nm_trim fun b1 h1 => .seq (.assertWeak (by decide)) fun u2 h2 => .seq nm_moveNext fun b2 h3 => .seq nm_trim fun b3 h4 => ?_
  simp only [h1, h2, h3, h4, Res.ok_bind] at h
  refine .bind (missTupMembers_none hU _ _ h) fun _ => ?_
  nm [nm_trim, nm_derefEnd, nm_skipBracketed]

theorem missOrdMembers_none : ∀ (ms : List (Option Nat × Ty)) (idx : Nat) (bs : Bytes), missOrdMembers cfg pU qU idx ms bs = none →
    NM (ordMembers cfg pU idx ms bs)
  | [], _, _, _ => by unfold ordMembers; exact .ok _
  | (want, ty) :: ms, idx, bs, h => by
    unfold missOrdMembers at h
    unfold ordMembers
    refine .seq nm_moveNext fun b1 h1 => ?_
    rw [h1] at h
    refine .seq ?_ fun x hx => ?_
    · cases want with
      | some w => exact nm_maybeSkip
      | none => exact .bind (.assertWeak (by decide)) fun _ => .ok _
    · have key : ∀ x : Nat × Bytes, (match (derefEnd cfg x.2 >>= fun c => .ok (x.1, x.2, c) : Res (Nat × Bytes × UInt8)) with
          | .ok (idx, b, c) =>
            if c = chRBrack then
              if ty.isOpt then missOrdMembers cfg pU qU (idx + 1) ms b else some asc! "ordered_class_member"
            else match pU ty b with
              | .ok (_, b) => missOrdMembers cfg pU qU (idx + 1) ms b
              | _ => qU ty b
          | _ => none) = none → NM (derefEnd cfg x.2 >>= fun c => (if c = chRBrack then
              if ty.isOpt then .ok (.none, x.2) else .err .missingMember
            else pU ty x.2 : Res (Val × Bytes)) >>= fun y => ordMembers cfg pU (x.1 + 1) ms y.2 >>= fun z => .ok (y.1 :: z.1, z.2)) := by
        rintro ⟨idx', b2⟩ h
        refine .seq nm_derefEnd fun c h2 => ?_
        dsimp only at h2
        simp only [h2, Res.ok_bind] at h
        by_cases hc : c = chRBrack
        · rw [if_pos hc] at h ⊢
          by_cases ho : ty.isOpt = true
          · rw [if_pos ho] at h ⊢
            simp only [Res.ok_bind]
            exact .bind (missOrdMembers_none ms _ _ h) fun _ => .ok _
          · rw [if_neg ho] at h; simp at h
        · rw [if_neg hc] at h ⊢
          cases hp : pU ty b2 with
          | err e =>
            rw [hp] at h
            dsimp only
            rw [← hp]
            refine .seq (hU _ _ h) fun x hx => ?_
            rw [hp] at hx; simp at hx
          | ub => exact .ub
          | ok y =>
            obtain ⟨v, b⟩ := y
            rw [hp] at h
            simp only [Res.ok_bind]
            exact .bind (missOrdMembers_none ms _ _ h) fun _ => .ok _
      refine key x ?_
      cases want with
      | some w =>
        dsimp only at hx h
        simp only [Res.ok_bind, hx] at h
        exact h
      | none =>
        dsimp only at hx h
        simp only [Res.ok_bind] at h
        rw [hx] at h
        exact h

theorem missOrd_none {exact : Bool} {ms : List (Option Nat × Ty)} {bs : Bytes} (h : missOrd cfg ms pU qU bs = none) : NM (parseOrd cfg exact ms pU bs) := by
  unfold missOrd at h
  unfold parseOrd
  refine .seq nm_trim fun b1 h1 => .seq (.assertWeak (by decide)) fun u2 h2 => .seq nm_trim fun b2 h3 => ?_
  simp only [h1, h2, h3, Res.ok_bind] at h
  refine .bind (missOrdMembers_none hU _ _ _ h) fun _ => ?_
  nm [nm_trim, nm_derefEnd, nm_skipBracketed]
end

/-- If no name is given, the parse did not end with that exception. -/
theorem miss_none (Δ : Env) : ∀ (f : Nat) (t : TCfg) (ty : Ty), (∀ bs, missU t Δ f ty bs = none → NM (parseU t Δ f ty bs)) ∧
    (∀ r a, missK t Δ f ty r a = none → NM (parseK t Δ f ty r a))
  | 0, t, ty => ⟨fun _ _ => by rw [parseU.eq_def]; exact .ub, fun _ _ _ => by rw [parseK.eq_def]; exact .ub⟩
  | f + 1, t, ty => by
    have ih := miss_none Δ f
    have hU : ∀ t ty b, missU t Δ f ty b = none → NM (parseU t Δ f ty b) := fun t ty => (ih t ty).1
    have hK : ∀ t ty r a, missK t Δ f ty r a = none → NM (parseK t Δ f ty r a) := fun t ty => (ih t ty).2
    constructor
    · intro bs h
      rw [missU.eq_def t Δ (f + 1)] at h
      rw [parseU.eq_def t Δ (f + 1)]
      dsimp only at h ⊢
      cases ty with
      | bool => exact .bind nm_parseBool fun _ => .ok _
      | int => exact .bind nm_parseInt fun _ => .ok _
      | str => exact .bind nm_parseStr fun _ => .ok _
      | txt => exact nm_parseTxt
      | opt ty =>
        dsimp only at h ⊢
        refine .seq nm_eatNull fun x hx => ?_
        rw [hx] at h
        cases x with
        | some r => exact .ok _
        | none => exact .bind (hU _ _ _ h) fun _ => .ok _
      | arr ty => exact missArr_none (hU t ty) h
      | map ty => exact missMap_none (hU t ty) h
      | ref i =>
        dsimp only at h ⊢
        cases hi : Δ i with
        | tup ts ex =>
          rw [hi] at h
          exact missTup_none (hU t) h
        | ord ms ex =>
          rw [hi] at h
          dsimp only at h ⊢
          refine .seq (.assertWeak (by decide)) fun u hu => ?_
          rw [if_neg (assertWeak_and hu)] at h
          exact .bind (missOrd_none (hU t) h) fun _ => .ok _
        | obj ms ex =>
          rw [hi] at h
          dsimp only at h ⊢
          refine .seq (.assertWeak (by decide)) fun u hu => ?_
          rw [if_neg (assertWeak_and hu)] at h
          exact .bind (missObj_none (hU t) (hK t) h) fun _ => .ok _
        | var alts =>
          rw [hi] at h
          dsimp only at h ⊢
          refine .seq nm_derefEnd fun c hc => .seq nm_altOfChar fun a ha => ?_
          simp only [hc, ha, Res.ok_bind] at h
          exact .bind (hU _ _ _ h) fun _ => .ok _
        | ivar tag sw alts =>
          rw [hi] at h
          dsimp only at h ⊢
          refine .seq (.assertWeak (by decide)) fun u hu => ?_
          rw [if_neg (assertWeak_and hu)] at h
          cases hx : parseObj t t.exactAll [tag] (parseU t Δ f) (parseK t Δ f) bs with
          | err e =>
            rw [hx] at h
            rw [← hx]
            refine .seq (missObj_none (hU t) (hK t) h) fun y hy => ?_
            rw [hx] at hy; simp at hy
          | ub => exact .ub
          | ok x =>
            rw [hx] at h
            simp only [Res.ok_bind] at h ⊢
            refine .seq nm_altOfTag fun a ha => ?_
            rw [ha] at h
            exact .bind (hU _ _ _ h) fun _ => .ok _
    · intro r a h
      rw [missK.eq_def t Δ (f + 1)] at h
      rw [parseK.eq_def t Δ (f + 1)]
      dsimp only at h ⊢
      cases ty with
      | bool => exact .bind nm_parseBoolKnown fun _ => .ok _
      | int => exact .bind nm_parseIntKnown fun _ => .ok _
      | str => exact .bind nm_parseStrRange fun _ => .ok _
      | txt => exact nm_parseTxtKnown
      | opt ty =>
        dsimp only at h ⊢
        by_cases he : r.null = true
        · rw [if_pos he]; exact .ok _
        · rw [if_neg he] at h ⊢
          exact .bind (hK _ _ _ _ h) fun _ => .ok _
      | arr ty => exact .bind (missArr_none (hU _ ty) h) fun _ => .ok _
      | map ty => exact .bind (missMap_none (hU _ ty) h) fun _ => .ok _
      | ref i =>
        dsimp only at h ⊢
        cases hi : Δ i with
        | tup ts ex =>
          rw [hi] at h
          exact .bind (missTup_none (hU _) h) fun _ => .ok _
        | ord ms ex =>
          rw [hi] at h
          dsimp only at h ⊢
          refine .seq (.assertWeak (by decide)) fun u hu => ?_
          rw [if_neg (assertWeak_and hu)] at h
          exact .bind (missOrd_none (hU _) h) fun _ => .ok _
        | obj ms ex =>
          rw [hi] at h
          dsimp only at h ⊢
          refine .seq (.assertWeak (by decide)) fun u hu => ?_
          rw [if_neg (assertWeak_and hu)] at h
          exact .bind (missObj_none (hU _) (hK _) h) fun _ => .ok _
        | var alts =>
          rw [hi] at h
          dsimp only at h ⊢
          refine .seq nm_altOfRange fun b hb => ?_
          rw [hb] at h
          exact .bind (hK _ _ _ _ h) fun _ => .ok _
        | ivar tag sw alts =>
          rw [hi] at h
          dsimp only at h ⊢
          refine .seq (.assertWeak (by decide)) fun u hu => ?_
          rw [if_neg (assertWeak_and hu)] at h
          cases hx : parseObj (t.inside r) t.exactAll [tag] (parseU (t.inside r) Δ f) (parseK (t.inside r) Δ f) (r.seen t.cfg a) with
          | err e =>
            rw [hx] at h
            rw [← hx]
            refine .seq (missObj_none (hU _) (hK _) h) fun y hy => ?_
            rw [hx] at hy; simp at hy
          | ub => exact .ub
          | ok x =>
            rw [hx] at h
            simp only [Res.ok_bind] at h ⊢
            refine .seq nm_altOfTag fun b hb => ?_
            rw [hb] at h
            exact .bind (hU _ _ _ h) fun _ => .ok _

/-! ## Names are names of members -/

section
variable {P : Bytes → Prop}

section
variable {t : TCfg} {exact : Bool} {N : List Bytes} {pU : Ty → Bytes → Res (Val × Bytes)} {pK : Ty → Range → Bytes → Res Val}
  {qU : Ty → Bytes → Option Bytes} {qK : Ty → Range → Bytes → Option Bytes}
  (hU : ∀ ty b n, qU ty b = some n → P n) (hK : ∀ ty r a n, qK ty r a = some n → P n)
include hU hK

theorem memberMiss_named {pos : Nat} {m : Member} {locs : Locs} {bs n : Bytes} (h : memberMiss t exact N qU qK pos m locs bs = some n) : P n := by
  unfold memberMiss at h
  repeat' split at h
  all_goals first | exact hU _ _ _ h | exact hK _ _ _ _ h | simp at h

theorem missMembers_named : ∀ (ms : List Member) (pos : Nat) (locs : Locs) (bs n : Bytes), (∀ m ∈ ms, P m.name) →
    missMembers t exact N pU pK qU qK pos ms locs bs = some n → P n
  | [], _, _, _, _, _, h => by simp [missMembers] at h
  | m :: ms, pos, locs, bs, n, hm, h => by
    unfold missMembers at h
    split at h
    · simp only [Option.some.injEq] at h
      exact h ▸ hm m (by simp)
    · split at h
      · exact missMembers_named ms _ _ _ n (fun m' h' => hm m' (by simp [h'])) h
      · exact memberMiss_named hU hK h

theorem missObj_named {ms : List Member} {bs n : Bytes} (hm : ∀ m ∈ ms, P m.name) (h : missObj t exact ms pU pK qU qK bs = some n) : P n := by
  unfold missObj at h
  repeat' split at h
  all_goals first | exact missMembers_named hU hK _ _ _ _ _ hm h | simp at h
end

section
variable {cfg : Cfg} {p : Bytes → Res (Val × Bytes)} {q : Bytes → Option Bytes} (hq : ∀ b n, q b = some n → P n)
include hq

theorem missArrLoop_named : ∀ (len : Nat) (bs n : Bytes), bs.length ≤ len → missArrLoop cfg p q bs = some n → P n := by
  intro len
  induction len using Nat.strongRecOn with
  | _ len ih =>
    intro bs n hl h
    unfold missArrLoop at h
    repeat' split at h
    all_goals first | exact hq _ _ h | exact ih _ (by omega) _ _ (Nat.le_refl _) h | simp at h

theorem missArr_named {bs n : Bytes} (h : missArr cfg p q bs = some n) : P n := by
  unfold missArr at h
  repeat' split at h
  all_goals first | exact missArrLoop_named hq _ _ _ (Nat.le_refl _) h | simp at h

theorem missMapLoop_named : ∀ (len : Nat) (bs n : Bytes), bs.length ≤ len → missMapLoop cfg p q bs = some n → P n := by
  intro len
  induction len using Nat.strongRecOn with
  | _ len ih =>
    intro bs n hl h
    unfold missMapLoop at h
    repeat' split at h
    all_goals first | exact hq _ _ h | exact ih _ (by omega) _ _ (Nat.le_refl _) h | simp at h

theorem missMap_named {bs n : Bytes} (h : missMap cfg p q bs = some n) : P n := by
  unfold missMap at h
  repeat' split at h
  all_goals first | exact missMapLoop_named hq _ _ _ (Nat.le_refl _) h | simp at h
end

section
variable {cfg : Cfg} {pU : Ty → Bytes → Res (Val × Bytes)} {qU : Ty → Bytes → Option Bytes} (hU : ∀ ty b n, qU ty b = some n → P n)
include hU

theorem missTupMembers_named : ∀ (ts : List Ty) (bs n : Bytes), missTupMembers cfg pU qU ts bs = some n → P n
  | [], _, _, h => by simp [missTupMembers] at h
  | ty :: ts, bs, n, h => by
    unfold missTupMembers at h
    repeat' split at h
    all_goals first | exact hU _ _ _ h | exact missTupMembers_named ts _ _ h | simp at h

theorem missTup_named {ts : List Ty} {bs n : Bytes} (h : missTup cfg ts pU qU bs = some n) : P n := by
  unfold missTup at h
  split at h
  · exact missTupMembers_named hU _ _ _ h
  · simp at h

theorem missOrdMembers_named (ho : P asc! "ordered_class_member") : ∀ (ms : List (Option Nat × Ty)) (idx : Nat) (bs n : Bytes),
    missOrdMembers cfg pU qU idx ms bs = some n → P n
  | [], _, _, _, h => by simp [missOrdMembers] at h
  | (want, ty) :: ms, idx, bs, n, h => by
    unfold missOrdMembers at h
    split at h
    · split at h
      · split at h
        · exact missOrdMembers_named ho ms _ _ _ h
        · simp only [Option.some.injEq] at h
          exact h ▸ ho
      · split at h
        · exact missOrdMembers_named ho ms _ _ _ h
        · exact hU _ _ _ h
    · simp at h

theorem missOrd_named (ho : P asc! "ordered_class_member") {ms : List (Option Nat × Ty)} {bs n : Bytes} (h : missOrd cfg ms pU qU bs = some n) : P n := by
  unfold missOrd at h
  split at h
  · exact missOrdMembers_named hU ho _ _ _ _ h
  · simp at h
end

theorem miss_named (Δ : Env) (hobj : ∀ i ms ex, Δ i = .obj ms ex → ∀ m ∈ ms, P m.name) (htag : ∀ i tag sw alts, Δ i = .ivar tag sw alts → P tag.name)
    (hord : ∀ i ms ex, Δ i = .ord ms ex → P asc! "ordered_class_member") : ∀ (f : Nat) (t : TCfg) (ty : Ty),
      (∀ bs n, missU t Δ f ty bs = some n → P n) ∧ (∀ r a n, missK t Δ f ty r a = some n → P n)
  | 0, t, ty => by simp [missU, missK]
  | f + 1, t, ty => by
    have ih := miss_named Δ hobj htag hord f
    have hU : ∀ t ty b n, missU t Δ f ty b = some n → P n := fun t ty => (ih t ty).1
    have hK : ∀ t ty r a n, missK t Δ f ty r a = some n → P n := fun t ty => (ih t ty).2
    constructor
    · intro bs n h
      rw [missU.eq_def t Δ (f + 1)] at h
      dsimp only at h
      cases ty with
      | bool => simp at h
      | int => simp at h
      | str => simp at h
      | txt => simp at h
      | opt ty =>
        dsimp only at h
        split at h
        · exact hU _ _ _ _ h
        · simp at h
      | arr ty => exact missArr_named (hU t ty) h
      | map ty => exact missMap_named (hU t ty) h
      | ref i =>
        dsimp only at h
        cases hi : Δ i with
        | tup ts ex => rw [hi] at h; exact missTup_named (hU t) h
        | ord ms ex =>
          rw [hi] at h
          dsimp only at h
          split at h
          · simp at h
          · exact missOrd_named (hU t) (hord i ms ex hi) h
        | obj ms ex =>
          rw [hi] at h
          dsimp only at h
          split at h
          · simp at h
          · exact missObj_named (hU t) (hK t) (hobj i ms ex hi) h
        | var alts =>
          rw [hi] at h
          dsimp only at h
          split at h
          · exact hU _ _ _ _ h
          · simp at h
        | ivar tag sw alts =>
          rw [hi] at h
          dsimp only at h
          have htg : ∀ m ∈ [tag], P m.name := by simpa using htag i tag sw alts hi
          split at h
          · simp at h
          · split at h
            · split at h
              · exact hU _ _ _ _ h
              · simp at h
            · exact missObj_named (hU t) (hK t) htg h
    · intro r a n h
      rw [missK.eq_def t Δ (f + 1)] at h
      dsimp only at h
      cases ty with
      | bool => simp at h
      | int => simp at h
      | str => simp at h
      | txt => simp at h
      | opt ty =>
        dsimp only at h
        split at h
        · simp at h
        · exact hK _ _ _ _ _ h
      | arr ty => exact missArr_named (hU _ ty) h
      | map ty => exact missMap_named (hU _ ty) h
      | ref i =>
        dsimp only at h
        cases hi : Δ i with
        | tup ts ex => rw [hi] at h; exact missTup_named (hU _) h
        | ord ms ex =>
          rw [hi] at h
          dsimp only at h
          split at h
          · simp at h
          · exact missOrd_named (hU _) (hord i ms ex hi) h
        | obj ms ex =>
          rw [hi] at h
          dsimp only at h
          split at h
          · simp at h
          · exact missObj_named (hU _) (hK _) (hobj i ms ex hi) h
        | var alts =>
          rw [hi] at h
          dsimp only at h
          split at h
          · exact hK _ _ _ _ _ h
          · simp at h
        | ivar tag sw alts =>
          rw [hi] at h
          dsimp only at h
          have htg : ∀ m ∈ [tag], P m.name := by simpa using htag i tag sw alts hi
          split at h
          · simp at h
          · split at h
            · split at h
              · exact hU _ _ _ _ h
              · simp at h
            · exact missObj_named (hU _) (hK _) htg h
end

end Verif
