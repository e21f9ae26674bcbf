/-!
# Base definitions shared by the model

* bytes and byte constants,
* results of a parsing step, with undefined behaviour as a distinct outcome,
* the two assertion macros of daw_json_link.
-/

namespace Verif

/-- A C++ `char`, viewed as `unsigned char`.  A range `[first,last)` of characters is a `Bytes`. -/
abbrev Bytes := List UInt8

/-- Error reasons: `enum class ErrorReason` in `include/daw/json/daw_json_exception.h` L45-91, plus
`missingMember` for the `missing_member` exceptions raised with a member name (same file). -/
inductive Err where
  | unknown | unexpectedEndOfData | invalidNumber | invalidNumberStart
  | invalidNumberUnexpectedQuoting | invalidTimestamp | invalidUTFEscape | invalidUTFCodepoint
  | invalidEndOfValue | invalidLiteral | invalidString | invalidStringHighASCII
  | expectedKeyValueToStartWithBrace | expectedKeyValueArrayToStartWithBracket
  | invalidArrayStart | invalidClassStart | invalidStartOfValue | invalidTrue | invalidFalse
  | invalidNull | unexpectedNull | numberIsNaN | numberIsInf | numberOutOfRange
  | emptyJSONDocument | emptyJSONPath | jsonPathNotFound | invalidJSONPath
  | nullOutputIterator | outputError | missingMemberName | invalidMemberName
  | expectedArrayOrClassStart | unknownMember | invalidBracketing
  | attemptToAccessPastEndOfValue | outOfOrderOrderedMembers | missingMemberNameOrEndOfClass
  | memberNotFound | tagMemberNotFound | expectedMemberNotFound | expectedTokenNotFound
  | unexpectedJSONVariantType | trailingComma | attemptToCallOpStarOnConstIterator
  | missingMember
  deriving DecidableEq, Repr

/-- Result of running a piece of the C++ code.
* `ok a`: returned normally,
* `err e`: threw a `json_exception` with that reason,
* `ub`: undefined behaviour, in practice a read outside `[first,last)` or `DAW_UNREACHABLE`. -/
inductive Res (α : Type) where
  | ok (a : α)
  | err (e : Err)
  | ub
  deriving DecidableEq, Repr

namespace Res

/-- Sequencing: stop at the first exception or undefined behaviour. -/
def bind {α β : Type} : Res α → (α → Res β) → Res β
  | ok a, f => f a
  | err e, _ => err e
  | ub, _ => ub

instance : Monad Res where
  pure := ok
  bind := bind

@[simp] theorem pure_eq {α : Type} (a : α) : (pure a : Res α) = ok a := rfl
@[simp] theorem ok_bind {α β : Type} (a : α) (f : α → Res β) : (ok a >>= f) = f a := rfl
@[simp] theorem err_bind {α β : Type} (e : Err) (f : α → Res β) : (err e >>= f) = err e := rfl
@[simp] theorem ub_bind {α β : Type} (f : α → Res β) : ((ub : Res α) >>= f) = ub := rfl

/-- `r` is a normal return. -/
def isOk {α : Type} : Res α → Bool
  | ok _ => true
  | _ => false

theorem bind_eq_ok {α β : Type} {x : Res α} {f : α → Res β} {b : β} :
    (x >>= f) = ok b ↔ ∃ a, x = ok a ∧ f a = ok b := by
  cases x <;> simp

theorem bind_ne_ub {α β : Type} {x : Res α} {f : α → Res β}
    (h₁ : x ≠ ub) (h₂ : ∀ a, x = ok a → f a ≠ ub) : (x >>= f) ≠ ub := by
  cases x with
  | ok a => exact h₂ a rfl
  | err e => simp
  | ub => exact absurd rfl h₁

end Res

/-- `daw_json_ensure( cond, reason )`, `daw_json_assert.h` L159-164: always evaluated. -/
def ensure (cond : Bool) (e : Err) : Res Unit := if cond then .ok () else .err e

/-- `daw_json_assert_weak( cond, reason )`, `daw_json_assert.h` L168-175: evaluated only when the
parse state is checked (`CheckedParseMode::yes`). -/
def assertWeak (checked : Bool) (cond : Bool) (e : Err) : Res Unit :=
  if checked then ensure cond e else .ok ()

@[simp] theorem ensure_true (e : Err) : ensure true e = .ok () := rfl
@[simp] theorem ensure_false (e : Err) : ensure false e = .err e := rfl
@[simp] theorem assertWeak_unchecked (c : Bool) (e : Err) : assertWeak false c e = .ok () := rfl
@[simp] theorem assertWeak_checked (c : Bool) (e : Err) : assertWeak true c e = ensure c e := rfl

/-- `*first`: undefined when the range is empty
(`BasicParsePolicy::front`, `daw_json_parse_policy.h` L344-346). -/
def deref : Bytes → Res UInt8
  | [] => .ub
  | c :: _ => .ok c

@[simp] theorem deref_nil : deref [] = .ub := rfl
@[simp] theorem deref_cons (c : UInt8) (cs : Bytes) : deref (c :: cs) = .ok c := rfl

/-! Character constants. -/

/-- `'"'` -/ notation "chQuote" => (0x22 : UInt8)
/-- `'\\'` -/ notation "chBslash" => (0x5C : UInt8)
/-- `'['` -/ notation "chLBrack" => (0x5B : UInt8)
/-- `']'` -/ notation "chRBrack" => (0x5D : UInt8)
/-- `'{'` -/ notation "chLBrace" => (0x7B : UInt8)
/-- `'}'` -/ notation "chRBrace" => (0x7D : UInt8)
/-- `','` -/ notation "chComma" => (0x2C : UInt8)
/-- `':'` -/ notation "chColon" => (0x3A : UInt8)
/-- `'-'` -/ notation "chMinus" => (0x2D : UInt8)
/-- `'+'` -/ notation "chPlus" => (0x2B : UInt8)
/-- `'.'` -/ notation "chDot" => (0x2E : UInt8)
/-- `'e'` -/ notation "chLe" => (0x65 : UInt8)
/-- `'E'` -/ notation "chUe" => (0x45 : UInt8)
/-- `'0'` -/ notation "ch0" => (0x30 : UInt8)
/-- `'9'` -/ notation "ch9" => (0x39 : UInt8)
/-- `'t'` -/ notation "chT" => (0x74 : UInt8)
/-- `'f'` -/ notation "chF" => (0x66 : UInt8)
/-- `'n'` -/ notation "chN" => (0x6E : UInt8)
/-- `'u'` -/ notation "chU" => (0x75 : UInt8)
/-- `'/'` -/ notation "chSlash" => (0x2F : UInt8)
/-- `' '` -/ notation "chSpace" => (0x20 : UInt8)
/-- `'\n'` -/ notation "chNl" => (0x0A : UInt8)

/-- `rue` as bytes -/ notation "txtRue" => ([0x72, 0x75, 0x65] : List UInt8)
/-- `alse` as bytes -/ notation "txtAlse" => ([0x61, 0x6C, 0x73, 0x65] : List UInt8)
/-- `ull` as bytes -/ notation "txtUll" => ([0x75, 0x6C, 0x6C] : List UInt8)

/-- The first byte, if any, satisfies `p`. -/
def headIs (p : UInt8 → Bool) : Bytes → Bool
  | [] => false
  | c :: _ => p c

end Verif
