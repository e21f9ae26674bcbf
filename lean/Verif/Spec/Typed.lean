import Verif.Spec.Real
import Verif.Spec.Utf8
import Verif.Spec.Date
import Verif.Model.Typed

/-!
# What a JSON document means as a value of a given type

`Reads Δ nm ea T doc v`: the document `doc`, read as type `T`, is the value `v`.  Written from the English; the parser is
not mentioned.  Of `Verif.Model.Typed` only the descriptions of types (`Ty`, `Shape`, `Env`) and of values (`Val`)
are used.
-/

namespace Verif.Spec

/-- The members of an object, in document order: name as written, value. -/
def JMems.toList : JMems → List (Verif.Bytes × JVal)
  | .nil => []
  | .cons _ n _ _ v _ tl => (n, v) :: tl.toList

/-- The elements of an array, in document order. -/
def JElems.toList : JElems → List JVal
  | .nil => []
  | .cons _ v _ tl => v :: tl.toList

/-- The names of the members of an object, as written. -/
def JMems.names (ms : JMems) : List Verif.Bytes := ms.toList.map Prod.fst

/-- The value of the first member with the given name. -/
def JMems.get? (ms : JMems) (n : Verif.Bytes) : Option JVal := ms.toList.lookup n

/-- A name written without escapes. -/
def PlainName (n : Verif.Bytes) : Prop := 0x5C ∉ n

/-- A number, `true` or `false`. -/
def JVal.IsLit : JVal → Prop
  | .num _ | .tru | .fls => True
  | _ => False

/-- A timestamp in UTC denoting the instant `t` (of a day whose number has 32 bits). -/
def IsUtcText (b : Verif.Bytes) (t : Int) : Prop :=
  ∃ txt z y m d h mi s ns, b = txt ++ z ∧ IsLocalText txt y m d h mi s ns ∧ (z = [] ∨ z = [0x5A]) ∧ ValidDate y m d ∧
    epochDay y m d < 2147483648 ∧ h ≤ 24 ∧ mi ≤ 59 ∧ s ≤ 60 ∧ t = instant y m d h mi s ns

/-- The text is not empty and does not start like an array or object. -/
def CustomText (b : Verif.Bytes) : Prop := b ≠ [] ∧ b.head? ≠ some 0x5B ∧ b.head? ≠ some 0x7B

/-- The number that a real is. -/
def _root_.Verif.Dec.val (r : Dec) : ℚ := (if r.neg then -1 else 1) * ((r.sig : ℚ) * 10 ^ r.exp)

/-- The significand has as few digits as possible. -/
def _root_.Verif.Dec.Normal (r : Dec) : Prop := r.sig % 10 ≠ 0 ∨ r = ⟨false, 0, 0⟩

/-- Numbers with this many digits are too long to be read without loss. -/
def tooLong (dbl : Bool) : Nat := if dbl then 18 else 10

/-- The text of a boolean or an integer of the type, and its value. -/
inductive LitText : LitTy → Bytes → Lit → Prop
  | tru : LitText .bool [0x74, 0x72, 0x75, 0x65] (.bool true)
  | fls : LitText .bool [0x66, 0x61, 0x6C, 0x73, 0x65] (.bool false)
  | int {t rc txt i} : t.Valid → t.InRange i → IsNumeral txt i → LitText (.int t rc) txt (.int i)

/-- What a document is as a type that takes its text: a raw string is what is written between the quotes, escapes and all; a date is
the instant denoted by the string; a custom type takes the text of a string or a literal; raw JSON is the document itself.  A real is the number that the document denotes, if
that has not too many digits.  A boolean or integer that is or may be a string is what stands between the quotes; one that may be a string
is also what stands there without quotes. -/
inductive ReadsTxt : TxtKind → JVal → Val → Prop
  | rawStr {ah b} : ReadsTxt (.rawStr ah) (.str b) (.txt b)
  | date {b t} : IsUtcText b t → ReadsTxt .date (.str b) (.date t)
  | customStr {b} : CustomText b → ReadsTxt (.custom .str) (.str b) (.txt b)
  | customLit {c d} : c ≠ .str → d.IsLit → ReadsTxt (.custom c) d (.txt d.text)
  | raw {d} : d ≠ .null → (∀ b, d ≠ .str b) → ReadsTxt .raw d (.txt d.text)
  | real {dbl fmt x neg i fd e r} : NumText x neg i fd e → (i ++ fd).length < tooLong dbl → e.natAbs + (i ++ fd).length < 2 ^ 31 →
      r.Normal →
      r.val = numVal neg i fd e → ReadsTxt (.real dbl fmt) (.num x) (.real r)
  | quoted {al l b x} : LitText l b x → ReadsTxt (.quoted al l) (.str b) (.lit x)
  | bare {l d x} : d.IsLit → LitText l d.text x → ReadsTxt (.quoted false l) d (.lit x)

mutual
/-- `Reads Δ nm ea T doc v`: the document `doc`, read as type `T`, is the value `v`.
`nm N n`: the name `n` may occur in an object read as a class with mapped names `N`;
`ea`: unmapped members are errors for every class. -/
inductive Reads (Δ : Env) (nm : List Bytes → Bytes → Prop) (ea : Bool) : Ty → JVal → Val → Prop
  | tru : Reads Δ nm ea .bool .tru (.bool true)
  | fls : Reads Δ nm ea .bool .fls (.bool false)
  | int {t rc txt i} : t.Valid → t.InRange i → IsNumeral txt i → Reads Δ nm ea (.int t rc) (.num txt) (.int i)
  | str {ah b s} : Unesc b s → Reads Δ nm ea (.str ah) (.str b) (.str s)
  | txt {k d v} : ReadsTxt k d v → Reads Δ nm ea (.txt k) d v
  | null {t} : Reads Δ nm ea (.opt t) .null .none
  | some {t d v} : d ≠ .null → Reads Δ nm ea t d v → Reads Δ nm ea (.opt t) d (.some v)
  /-- An empty array or map has nothing but whitespace between its brackets. -/
  | arr {t w es vs} : (es = .nil → IsWs w) → ReadsElems Δ nm ea t es vs → Reads Δ nm ea (.arr t) (.arr w es) (.arr vs)
  | map {t w ms kvs} : (ms = .nil → IsWs w) → ReadsPairs Δ nm ea t ms kvs → Reads Δ nm ea (.map t) (.obj w ms) (.map kvs)
  /-- A class: every mapped name occurs at most once in the object; unless all members must be mapped there may be
  others. -/
  | obj {i ms ex w jm vs} : Δ i = .obj ms ex → (∀ n ∈ jm.names, nm (ms.map Member.name) n) →
      (∀ m ∈ ms, jm.names.count m.name ≤ 1) →
      ((ex || ea) = true → ∀ n ∈ jm.names, ∃ m ∈ ms, m.name = n) →
      ReadsMembers Δ nm ea ms jm vs → Reads Δ nm ea (.ref i) (.obj w jm) (.cls vs)
  /-- A tuple: one element for each component; unless all elements must be mapped there may be more. -/
  | tup {i ts ex w es vs} : Δ i = .tup ts ex → ReadsTuple Δ nm ea (ex || ea) ts es vs →
      Reads Δ nm ea (.ref i) (.arr w es) (.cls vs)
  /-- A class stored in an array.  If all elements must be mapped, a comma after the last one is not allowed. -/
  | ord {i ms ex w es vs} : Δ i = .ord ms ex → (ms = [] → es = .nil) → ((ex || ea) = true → IsWs w) → ReadsOrdered Δ nm ea (ex || ea) 0 ms es vs →
      Reads Δ nm ea (.ref i) (.arr w es) (.cls vs)
  /-- A variant: the value of an alternative the document can be read as; `null` is none. -/
  | var {i alts k ty d v} : Δ i = .var alts → alts[k]? = .some ty → d ≠ .null → Reads Δ nm ea ty d v →
      Reads Δ nm ea (.ref i) d (.alt k v)
  /-- A variant told apart by the tag, a member of the object: the whole object is read as the alternative whose number goes with the
  tag.  If unmapped members are errors the object must not have other members. -/
  | ivar {i tag sw alts ty w jm x v} : Δ i = .ivar tag sw alts → (∀ n ∈ jm.names, nm [tag.name] n) →
      jm.names.count tag.name ≤ 1 → (ea = true → ∀ n ∈ jm.names, n = tag.name) →
      ReadsMembers Δ nm ea [tag] jm [x] → alts[sw x]? = .some ty → Reads Δ nm ea ty (.obj w jm) v →
      Reads Δ nm ea (.ref i) (.obj w jm) (.alt (sw x) v)
/-- Array elements, all of one type. -/
inductive ReadsElems (Δ : Env) (nm : List Bytes → Bytes → Prop) (ea : Bool) : Ty → JElems → List Val → Prop
  | nil {t} : ReadsElems Δ nm ea t .nil []
  | cons {t pre d post tl v vs} : Reads Δ nm ea t d v → ReadsElems Δ nm ea t tl vs →
      ReadsElems Δ nm ea t (.cons pre d post tl) (v :: vs)
/-- The pairs of a map, in document order. -/
inductive ReadsPairs (Δ : Env) (nm : List Bytes → Bytes → Prop) (ea : Bool) : Ty → JMems → List (Bytes × Val) → Prop
  | nil {t} : ReadsPairs Δ nm ea t .nil []
  | cons {t pre n pc qc d post tl k v kvs} : Unesc n k → Reads Δ nm ea t d v → ReadsPairs Δ nm ea t tl kvs →
      ReadsPairs Δ nm ea t (.cons pre n pc qc d post tl) ((k, v) :: kvs)
/-- The members of a class, in mapping order, looked up by name in the object. -/
inductive ReadsMembers (Δ : Env) (nm : List Bytes → Bytes → Prop) (ea : Bool) : List Member → JMems → List Val → Prop
  | nil {jm} : ReadsMembers Δ nm ea [] jm []
  | found {m ms jm d v vs} : jm.get? m.name = .some d → Reads Δ nm ea m.ty d v → ReadsMembers Δ nm ea ms jm vs →
      ReadsMembers Δ nm ea (m :: ms) jm (v :: vs)
  | absent {m ms jm vs} : jm.get? m.name = .none → m.ty.isOpt = true → ReadsMembers Δ nm ea ms jm vs →
      ReadsMembers Δ nm ea (m :: ms) jm (.none :: vs)
/-- The components of a tuple.  Elements after the last component are ignored unless the mapping is `exact`; the first
of them must not be an array. -/
inductive ReadsTuple (Δ : Env) (nm : List Bytes → Bytes → Prop) (ea : Bool) : Bool → List Ty → JElems → List Val → Prop
  | nil {exact es} : (exact = true → es = .nil) → (∀ pre w es' post tl, es ≠ .cons pre (.arr w es') post tl) →
      ReadsTuple Δ nm ea exact [] es []
  | cons {exact t ts pre d post tl v vs} : Reads Δ nm ea t d v → ReadsTuple Δ nm ea exact ts tl vs →
      ReadsTuple Δ nm ea exact (t :: ts) (.cons pre d post tl) (v :: vs)
/-- The members of a class stored in an array, `idx` being the index in the array of the first of the elements
`es` that are left.  A member without an index of its own takes the next element; elements in between are ignored;
when the elements run out the remaining members must be nullable; elements after the last member are ignored unless
the mapping is `exact`. -/
inductive ReadsOrdered (Δ : Env) (nm : List Bytes → Bytes → Prop) (ea : Bool) : Bool → Nat → List (Option Nat × Ty) → JElems → List Val → Prop
  | nil {exact idx es} : (exact = true → es = .nil) → ReadsOrdered Δ nm ea exact idx [] es []
  | skip {exact idx want ty ms pre d post tl vs} : idx < want →
      ReadsOrdered Δ nm ea exact (idx + 1) ((some want, ty) :: ms) tl vs →
      ReadsOrdered Δ nm ea exact idx ((some want, ty) :: ms) (.cons pre d post tl) vs
  | read {exact idx want ty ms pre d post tl v vs} : (want = none ∨ want = some idx) → Reads Δ nm ea ty d v →
      ReadsOrdered Δ nm ea exact (idx + 1) ms tl vs →
      ReadsOrdered Δ nm ea exact idx ((want, ty) :: ms) (.cons pre d post tl) (v :: vs)
  | gone {exact idx want ty ms vs} : (∀ w, want = some w → idx ≤ w) → ty.isOpt = true →
      ReadsOrdered Δ nm ea exact ((want.getD idx) + 1) ms .nil vs →
      ReadsOrdered Δ nm ea exact idx ((want, ty) :: ms) .nil (.none :: vs)
end

/-- The position in the array behind the last member, `idx` being the position of the next element: a member without an
index of its own takes the next position. -/
def ordEnd : Nat → List (Option Nat × Ty) → Nat
  | idx, [] => idx
  | idx, (want, _) :: ms => ordEnd (want.getD idx + 1) ms

/-- The kinds of JSON values. -/
inductive JKind where
  | null | bool | number | string | array | object
  deriving DecidableEq, Repr

/-- The kind of a JSON value. -/
def JVal.jkind : JVal → JKind
  | .null => .null
  | .tru | .fls => .bool
  | .num _ => .number
  | .str _ => .string
  | .arr .. => .array
  | .obj .. => .object

/-- The kind of JSON value a type that takes text is stored as, if there is only one.  (None is given for literals as strings, which are
therefore no alternatives of the variants in `EnvOk`.) -/
def _root_.Verif.TxtKind.kind : TxtKind → Option JKind
  | .rawStr _ | .date | .custom .str => some .string
  | .custom _ | .raw | .quoted .. => none
  | .real .. => some .number

/-- The kind of JSON value a type is stored as, if there is only one: nullable values can be `null` as well; for variants it depends
on the value (even if all alternatives are objects). -/
def _root_.Verif.Ty.kind (Δ : Env) : Ty → Option JKind
  | .bool => some .bool
  | .int .. => some .number
  | .str _ => some .string
  | .txt k => k.kind
  | .opt _ => none
  | .arr _ => some .array
  | .map _ => some .object
  | .ref i =>
    match Δ i with
    | .obj .. => some .object
    | .tup .. | .ord .. => some .array
    | .var _ | .ivar .. => none

/-- Mapped classes: the mapped names of every class are different from each other.  The alternatives of a variant are stored as
different kinds of JSON values; none of them is nullable, a variant or a class stored in an array. -/
structure EnvOk (Δ : Env) : Prop where
  nodup : ∀ i ms ex, Δ i = .obj ms ex → (ms.map Member.name).Nodup
  kinds : ∀ i alts, Δ i = .var alts → (alts.map (Ty.kind Δ)).Nodup
  kind : ∀ i alts, Δ i = .var alts → ∀ ty ∈ alts, (ty.kind Δ).isSome ∧ ∀ j ms ex, ty = .ref j → Δ j ≠ .ord ms ex

/-- A real, perhaps in a nullable or a variant. -/
def _root_.Verif.Val.bareReal : Val → Bool
  | .real _ => true
  | .some v => v.bareReal
  | .alt _ v => v.bareReal
  | _ => false

/-- A boolean or integer that is or may be a string, perhaps in a nullable or a variant. -/
def _root_.Verif.Val.bareLit : Val → Bool
  | .lit _ => true
  | .some v => v.bareLit
  | .alt _ v => v.bareLit
  | _ => false

/-- A real, or a boolean or integer that is or may be a string, perhaps in a nullable or a variant. -/
def _root_.Verif.Val.bare (v : Val) : Bool := v.bareReal || v.bareLit

/-- If the document is a real, then with a decimal point or an exponent; it is no boolean or integer that is or may be a string. -/
def EndsWell (d : JVal) (v : Val) : Prop :=
  v.bareLit = false ∧ (v.bareReal = true → ∃ c ∈ d.text, c = 0x2E ∨ c = 0x65 ∨ c = 0x45)

mutual
/-- The value has no empty nullable parts, and no `false` that is or may be a string. -/
def _root_.Verif.Val.noNone : Val → Bool
  | .none => false
  | .lit x => decide (x ≠ .bool false)
  | .some v => v.noNone
  | .arr vs => Val.noNones vs
  | .map kvs => Val.noNonek kvs
  | .cls vs => Val.noNones vs
  | .alt _ v => v.noNone
  | _ => true
/-- Same, for all of them. -/
def _root_.Verif.Val.noNones : List Val → Bool
  | [] => true
  | v :: vs => v.noNone && Val.noNones vs
/-- Same, for pairs. -/
def _root_.Verif.Val.noNonek : List (Bytes × Val) → Bool
  | [] => true
  | (_, v) :: kvs => v.noNone && Val.noNonek kvs
end

/-- Strings of the type may hold any character (`EightBitModes::AllowFull`). -/
def _root_.Verif.Ty.wide : Ty → Bool
  | .str ah => ah
  | .opt t => t.wide
  | .arr t => t.wide
  | .map t => t.wide
  | _ => true

/-- Neither a container nor a class nor nullable. -/
def _root_.Verif.Ty.scalar : Ty → Bool
  | .bool => true
  | .int .. => true
  | .str _ => true
  | _ => false

/-- Strings in mapped classes may hold any character; tags are booleans, integers or strings. -/
def _root_.Verif.Shape.wide : Shape → Bool
  | .obj ms _ => ms.all fun m => m.ty.wide
  | .tup ts _ => ts.all Ty.wide
  | .ord ms _ => ms.all fun m => m.2.wide
  | .var alts => alts.all Ty.wide
  | .ivar tag _ alts => tag.ty.wide && tag.ty.scalar && alts.all Ty.wide

/-- A name that may occur in an object read as a class with mapped names `N`: it is written without escapes
(`AllowEscapedNames` lifts that), and it is not mistaken for a mapped name that has the same hash.  The latter is
excluded when names are compared in full: with `ForceFullNameCheck`, or if two of the mapped names have the same
hash. -/
def Usable (t : TCfg) (N : List Bytes) (n : Bytes) : Prop :=
  (PlainName n ∨ t.escNames = true) ∧
  (t.forceFull = true ∨ ¬ (N.map (nameHash false)).Nodup ∨ ∀ m ∈ N, nameHash false n = nameHash false m → n = m)

/-- The members of an object that have a mapped name. -/
def JMems.mapped (N : List Bytes) (jm : JMems) : List (Bytes × JVal) := jm.toList.filter fun p => N.contains p.1

/-- The value ends by itself: a string, array or object. -/
def JVal.closed : JVal → Bool
  | .str _ | .arr .. | .obj .. => true
  | _ => false

/-- The value ends by itself, and the one who reads it stops there: not if it is read as a boolean or integer that is or may be a
string. -/
def JVal.ends (d : JVal) (v : Val) : Bool := d.closed && !v.bareLit

/-- The text without a final NUL, which `from_json` takes for the terminator of a string literal. -/
def dropNul (k : Bytes) : Bytes := if k.getLast? = some 0 then k.dropLast else k

/-- Sizes the library can represent: nesting fits a 32 bit counter, positions a signed 64 bit one. -/
structure JVal.Fits (d : JVal) : Prop where
  depth : d.depth < 2 ^ 32
  size : d.text.length < 2 ^ 63

end Verif.Spec
