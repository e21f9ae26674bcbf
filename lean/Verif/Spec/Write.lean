import Verif.Spec.Typed

/-!
# Values of a type, and documents up to whitespace

Nothing here mentions the writer.
-/

namespace Verif.Spec

open Verif

/-- The value `v` of alternative `k` is an object of a class with the tag among its members, and the tag it has is one that stands for
alternative `k`. -/
def Tagged (Δ : Env) (tag : Member) (sw : Val → Nat) (alts : List Ty) (k : Nat) (v : Val) : Prop :=
  ∃ (j : Nat) (ms : List Member) (ex : Bool) (vs : List Val) (p : Nat) (x : Val), alts[k]? = some (.ref j) ∧ Δ j = .obj ms ex ∧ v = .cls vs ∧ ms[p]? = some tag ∧ vs[p]? = some x ∧ sw x = k

/-- Printable ASCII characters (and DEL) only, if that is asked for. -/
def Seven (only7bit : Bool) (s : Bytes) : Prop := only7bit = true → ∀ c ∈ s, 0x20 ≤ c.toNat ∧ c.toNat ≤ 0x7F

/-- Text that a custom type or raw string can hand over as it is: between the quotes of a string, respectively a number, `true` or
`false`; for raw JSON any value but `null` and strings. -/
def HasTxt : TxtKind → Bytes → Prop
  | .rawStr ah, s => IsStrBody s ∧ Seven (!ah) s
  | .date, _ | .real .., _ | .quoted .., _ => False
  | .custom .str, s => IsStrBody s ∧ CustomText s
  | .custom .lit, s => ∃ d : JVal, d.WF ∧ d.IsLit ∧ s = d.text
  | .custom .any, _ => False
  | .raw, s => ∃ d : JVal, d.WF ∧ d ≠ .null ∧ (∀ b, d ≠ .str b) ∧ s = d.text

/-- Written without an exponent the number has few enough digits. -/
def FewDigits (dbl : Bool) (r : Dec) : Prop :=
  if r.exp < 0 then r.sig < 10 ^ (tooLong dbl - 1) ∧ 1 - r.exp < tooLong dbl else r.sig * 10 ^ r.exp.toNat < 10 ^ (tooLong dbl - 1)

/-- A real that can be written and read without loss: the significand has at most 17 (9) digits, and for formats without exponent not too
many digits are written. -/
def HasReal (dbl : Bool) (fmt : FPFmt) (r : Dec) : Prop :=
  r.Normal ∧ r.sig < 10 ^ (tooLong dbl - 1) ∧ (if dbl then -900 ≤ r.exp ∧ r.exp ≤ 900 else -90 ≤ r.exp ∧ r.exp ≤ 90) ∧
    match fmt with
    | .scientific => True
    | .decimal => FewDigits dbl r
    | .auto => FewDigits dbl r ∨ (r.sig : ℚ) * 10 ^ r.exp < 10 ^ (-5 : Int) ∨ 10 ^ (6 : Int) ≤ (r.sig : ℚ) * 10 ^ r.exp

/-- A value of the type. -/
def HasLit : LitTy → Lit → Prop
  | .bool, .bool _ => True
  | .int t _, .int i => t.Valid ∧ t.InRange i
  | _, _ => False

mutual
/-- `HasTy Δ P T ty v`: `v` is a value of type `ty` whose strings satisfy `P`, and whose raw text satisfies `T`.  A nullable value that is not empty does not
contain an empty one (JSON has only one `null`); neither does a variant.  A variant that is told apart by a member of the object
has the right tag. -/
def HasTy (Δ : Env) (P T : Bytes → Prop) (ty : Ty) (v : Val) : Prop :=
  match v with
  | .bool _ => ty = .bool
  | .int i =>
    match ty with
    | .int t _ => t.Valid ∧ t.InRange i
    | _ => False
  | .str s =>
    match ty with
    | .str _ => P s
    | _ => False
  | .txt s =>
    match ty with
    | .txt k => T s ∧ HasTxt k s
    | _ => False
  | .date x =>
    match ty with
    | .txt .date => 0 ≤ x ∧ x / 86400000 + 719468 < 2147483648 ∧ (x % 1000 = 0 ∨ 100 ≤ x % 1000)
    | _ => False
  | .real x =>
    match ty with
    | .txt (.real dbl fmt) => HasReal dbl fmt x
    | _ => False
  | .lit x =>
    match ty with
    | .txt (.quoted _ l) => HasLit l x
    | _ => False
  | .none =>
    match ty with
    | .opt _ => True
    | _ => False
  | .some v =>
    match ty with
    | .opt ty => v ≠ .none ∧ HasTy Δ P T ty v
    | _ => False
  | .arr vs =>
    match ty with
    | .arr ty => HasElems Δ P T ty vs
    | _ => False
  | .map kvs =>
    match ty with
    | .map ty => HasPairs Δ P T ty kvs
    | _ => False
  | .cls vs =>
    match ty with
    | .ref i =>
      match Δ i with
      | .obj ms _ => HasList Δ P T (ms.map Member.ty) vs
      | .tup ts _ => HasList Δ P T ts vs
      | .ord ms _ => HasList Δ P T (ms.map Prod.snd) vs
      | _ => False
    | _ => False
  | .alt k v =>
    match ty with
    | .ref i =>
      match Δ i with
      | .var alts => v ≠ .none ∧ ∃ ty, alts[k]? = some ty ∧ HasTy Δ P T ty v
      | .ivar tag sw alts => Tagged Δ tag sw alts k v ∧ ∃ ty, alts[k]? = some ty ∧ HasTy Δ P T ty v
      | _ => False
    | _ => False
/-- All elements are of the type. -/
def HasElems (Δ : Env) (P T : Bytes → Prop) (ty : Ty) (vs : List Val) : Prop :=
  match vs with
  | [] => True
  | v :: vs => HasTy Δ P T ty v ∧ HasElems Δ P T ty vs
/-- All values of the map are of the type, all keys satisfy `P`. -/
def HasPairs (Δ : Env) (P T : Bytes → Prop) (ty : Ty) (kvs : List (Bytes × Val)) : Prop :=
  match kvs with
  | [] => True
  | (k, v) :: kvs => P k ∧ HasTy Δ P T ty v ∧ HasPairs Δ P T ty kvs
/-- Each value is of its own type. -/
def HasList (Δ : Env) (P T : Bytes → Prop) (ts : List Ty) (vs : List Val) : Prop :=
  match vs with
  | [] => ts = []
  | v :: vs =>
    match ts with
    | [] => False
    | ty :: ts => HasTy Δ P T ty v ∧ HasList Δ P T ts vs
end

mutual
/-- Nesting depth of the arrays, maps and classes of a value (a variant is no deeper than what it holds; of text
the number of opening brackets, which it is not deeper than). -/
def _root_.Verif.Val.depth : Val → Nat
  | .bool _ | .int _ | .str _ | .date _ | .real _ | .lit _ | .none => 0
  | .txt s => s.count 0x5B + s.count 0x7B
  | .some v => v.depth
  | .arr vs => depths vs + 1
  | .map kvs => depthp kvs + 1
  | .cls vs => depths vs + 1
  | .alt _ v => v.depth
/-- Largest depth of the values. -/
def depths : List Val → Nat
  | [] => 0
  | v :: vs => max v.depth (depths vs)
/-- Largest depth of the values of the pairs. -/
def depthp : List (Bytes × Val) → Nat
  | [] => 0
  | (_, v) :: kvs => max v.depth (depthp kvs)
end

/-- The indices of an ordered class the writer can cope with: every member but the last is stored at its own position
(it has no index, or that one), and the last one not before its position. -/
def Compact (idx : Nat) : List (Option Nat × Ty) → Prop
  | [] => True
  | [(want, _)] => ∀ w, want = some w → idx ≤ w
  | (want, _) :: ms => (∀ w, want = some w → idx = w) ∧ Compact (idx + 1) ms

/-- Mapped classes that can be written: the names of the members of a class are different from each other and can stand
between quotes as they are; ordered classes are `Compact`. -/
structure Writable (Δ : Env) : Prop where
  nodup : EnvOk Δ
  names : ∀ i ms ex, Δ i = .obj ms ex → ∀ m ∈ ms, IsStrBody m.name
  compact : ∀ i ms ex, Δ i = .ord ms ex → Compact 0 ms

mutual
/-- The document without the whitespace between its tokens. -/
def JVal.strip : JVal → JVal
  | .null => .null
  | .tru => .tru
  | .fls => .fls
  | .num t => .num t
  | .str b => .str b
  | .arr w es => .arr (w.filter (· = 0x2C)) es.strip
  | .obj w ms => .obj (w.filter (· = 0x2C)) ms.strip
/-- The elements without whitespace. -/
def JElems.strip : JElems → JElems
  | .nil => .nil
  | .cons _ v _ tl => .cons [] v.strip [] tl.strip
/-- The members without whitespace. -/
def JMems.strip : JMems → JMems
  | .nil => .nil
  | .cons _ n _ _ v _ tl => .cons [] n [] [] v.strip [] tl.strip
end

end Verif.Spec
