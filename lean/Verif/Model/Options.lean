import Verif.Model.Base

/-!
# Option words

Models `impl/daw_json_option_bits.h`, the option part of `impl/daw_json_parse_options_impl.h` and
`impl/daw_json_serialize_policy_details.h`, and the option lists of these and of `impl/daw_json_type_options.h`.  The three
files contain the same functions, once for a list given as an argument and twice for a fixed list; they are modelled once, for any
list.  The functions are `constexpr` or `consteval`: shifts by 32 or more do not compile.
-/

namespace Verif

/-- An option type: `json_option_bits_width` and `default_json_option_value` (as its number). -/
structure Opt where
  width : Nat
  dflt : Nat
  deriving DecidableEq, Repr

/-- `option_bits_start_impl::calc`, `daw_json_option_bits.h` L38-59: the widths of the options in front of the `i`-th, added up. -/
def optStart : List Opt → Nat → Nat
  | [], _ => 0
  | _ :: _, 0 => 0
  | o :: os, i + 1 => o.width + optStart os i

/-- `json_option_bits_width` of the `i`-th option. -/
def optWidth (L : List Opt) (i : Nat) : Nat := ((L[i]?).map Opt.width).getD 0

/-- `( 1U << n ) - 1U`. -/
def lowMask (n : Nat) : BitVec 32 := (1#32 <<< n) - 1#32

/-- One step of `set_bits`, `daw_json_option_bits.h` L145-165, `daw_json_parse_options_impl.h` L181-208,
`daw_json_serialize_policy_details.h` L190-211. -/
def setBits (L : List Opt) (w : BitVec 32) (i : Nat) (v : Nat) : BitVec 32 :=
  (w &&& ~~~(lowMask (optWidth L i) <<< optStart L i)) ||| ((BitVec.ofNat 32 v &&& lowMask (optWidth L i)) <<< optStart L i)

/-- `set_bits` with several options, the same lines. -/
def setBitsAll (L : List Opt) (w : BitVec 32) : List (Nat × Nat) → BitVec 32
  | [] => w
  | (i, v) :: ps => setBitsAll L (setBits L w i v) ps

/-- `set_bits_in`, `daw_json_option_bits.h` L131-143, `daw_json_serialize_policy_details.h` L178-188: the mask is not shifted when
the old bits are cleared. -/
def setBitsIn (L : List Opt) (w : BitVec 32) (i : Nat) (v : Nat) : BitVec 32 :=
  (w &&& ~~~lowMask (optWidth L i)) ||| ((BitVec.ofNat 32 v &&& lowMask (optWidth L i)) <<< optStart L i)

/-- `set_bits_for`, `daw_json_option_bits.h` L100-107, `daw_json_parse_options_impl.h` L210-217,
`daw_json_serialize_policy_details.h` L213-220. -/
def setBitsFor (L : List Opt) (i : Nat) (v : Nat) : BitVec 32 := BitVec.ofNat 32 v <<< optStart L i

/-- `get_bits_for`, `daw_json_option_bits.h` L173-193, `daw_json_parse_options_impl.h` L236-246,
`daw_json_serialize_policy_details.h` L238-248: the number of the option's value. -/
def getBits (L : List Opt) (w : BitVec 32) (i : Nat) : Nat :=
  ((w &&& lowMask (optStart L i + optWidth L i)) >>> optStart L i).toNat

/-- The values of a list of options, each shifted to its place, or-ed: the fold expressions in
`daw_json_option_bits.h` L109-112, L126, `daw_json_parse_options_impl.h` L224-226, L260 and
`daw_json_serialize_policy_details.h` L226-228. -/
def orBitsFor (L : List Opt) : List (Nat × Nat) → BitVec 32
  | [] => 0#32
  | (i, v) :: ps => setBitsFor L i v ||| orBitsFor L ps

/-- Every option of the list, from the `i`-th on, with its default. -/
def optDefaults : Nat → List Opt → List (Nat × Nat)
  | _, [] => []
  | i, o :: os => (i, o.dflt) :: optDefaults (i + 1) os

/-- `default_option_flag`, `daw_json_option_bits.h` L109-112; `default_policy_flag`, `daw_json_parse_options_impl.h` L219-234,
`daw_json_serialize_policy_details.h` L222-236. -/
def defaultFlag (L : List Opt) : BitVec 32 := orBitsFor L (optDefaults 0 L)

/-- `JsonOptionList::options`, `daw_json_option_bits.h` L120-128 (behind `number_opt`, `string_opt`, …); `parse_options`,
`daw_json_parse_options_impl.h` L254-263; `serialize_options`, `daw_json_serialize_policy.h` L33-43: the options given are or-ed onto the
defaults. -/
def optionsOr (L : List Opt) (ps : List (Nat × Nat)) : BitVec 32 := defaultFlag L ||| orBitsFor L ps

/-- `policy_list` of the parser, `daw_json_parse_options_impl.h` L44-171: ExecModeTypes, ZeroTerminatedString, PolicyCommentTypes,
CheckedParseMode, AllowEscapedNames, IEEE754Precise, ForceFullNameCheck, MinifiedDocument, UseExactMappingsByDefault,
MustVerifyEndOfDataIsValid, ExcludeSpecialEscapes, ExpectLongNames. -/
def parseOpts : List Opt :=
  [⟨2, 0⟩, ⟨1, 0⟩, ⟨2, 0⟩, ⟨1, 0⟩, ⟨1, 0⟩, ⟨1, 0⟩, ⟨1, 0⟩, ⟨1, 0⟩, ⟨1, 0⟩, ⟨1, 0⟩, ⟨1, 0⟩, ⟨1, 0⟩]

/-- `policy_list` of the serializer, `daw_json_serialize_policy_details.h` L164-167, `daw_json_serialize_options_impl.h` L26-87:
SerializationFormat, IndentationType (default Space2), RestrictedStringOutput (default ErrorInvalidUTF8), NewLineDelimiter,
OutputTrailingComma. -/
def serializeOpts : List Opt := [⟨1, 0⟩, ⟨3, 2⟩, ⟨2, 1⟩, ⟨1, 0⟩, ⟨1, 0⟩]

/-- `number_opts_t`, `daw_json_type_options.h` L118-120: LiteralAsStringOpt, JsonRangeCheck, JsonNumberErrors, FPOutputFormat. -/
def numberOpts : List Opt := [⟨2, 0⟩, ⟨1, 0⟩, ⟨2, 0⟩, ⟨2, 0⟩]

/-- `bool_opts_t`, `daw_json_type_options.h` L134-135: LiteralAsStringOpt. -/
def boolOpts : List Opt := [⟨2, 0⟩]

/-- `string_opts_t`, `daw_json_type_options.h` L175: EightBitModes, whose default AllowFull has the number 1. -/
def stringOpts : List Opt := [⟨1, 1⟩]

/-- `string_raw_opts_t`, `daw_json_type_options.h` L214-216: EightBitModes, AllowEscapeCharacter. -/
def stringRawOpts : List Opt := [⟨1, 1⟩, ⟨1, 0⟩]

/-- `json_custom_opts_t`, `daw_json_type_options.h` L260-261: JsonCustomTypes. -/
def customOpts : List Opt := [⟨2, 0⟩]

end Verif
