import Verif.Spec.Typed
import Verif.Spec.Write
import Verif.Model.Dep

/-!
# What a JSON object means as a class some of whose members depend on others

Of `Verif.Model.Dep` only the descriptions of types (`DTy`, `DMember`) are used.
-/

namespace Verif.Spec

/-- The member `m` stands in front of the member `n`. -/
def JMems.Before (jm : JMems) (m n : Bytes) : Prop := jm.names.idxOf m < jm.names.idxOf n

/-- The member with the `p`-th of the mapped names `N` stands behind all members mapped before it; those of them that are `null` stand
behind all members mapped before them. -/
def JMems.InPlace (jm : JMems) (N : List Bytes) (p : Nat) : Prop :=
  ∀ (j : Nat) n n', j < p → N[j]? = some n → N[p]? = some n' →
    jm.Before n n' ∧ (jm.get? n = some .null → ∀ (i : Nat) m, i < j → N[i]? = some m → jm.Before m n)

/-- The member of an object with members `jm` is, as a member of type `T`, the value.
* A variant with a tag: the alternative whose number goes with the tag, which is a member of the same object.
* A sized array: the size, a member of the same object, as an unsigned number of 64 bits, and the elements.
* An array of pairs: the pairs, in order. -/
inductive ReadsDep (Δ : Env) (nm : List Bytes → Bytes → Prop) (ea : Bool) (jm : JMems) : DTy → JVal → Val → Prop
  | plain {ty d v} : Reads Δ nm ea ty d v → ReadsDep Δ nm ea jm (.plain ty) d v
  | tagged {tag sw wr alts x ty d v} : (∀ n ∈ jm.names, nm [tag.name] n) → jm.names.count tag.name ≤ 1 →
      (ea = true → ∀ n ∈ jm.names, n = tag.name) → ReadsMembers Δ nm ea [tag] jm [x] → alts[sw x]? = some ty →
      Reads Δ nm ea ty d v → ReadsDep Δ nm ea jm (.tagged tag sw wr alts) d (.alt (sw x) v)
  | sized {size elem dn n d vs} : jm.get? size.name = some dn → Reads Δ nm ea size.ty dn (.int n) →
      Reads Δ nm ea (.arr elem) d (.arr vs) →
      ReadsDep Δ nm ea jm (.sized size elem) d (.cls [.int (n % 2 ^ 64), .arr vs])
  | pairs {i k x ex d v} : Δ i = .obj [k, x] ex → Reads Δ nm ea (.arr (.ref i)) d v → ReadsDep Δ nm ea jm (.pairs i) d v

/-- The members of the class, in mapping order, looked up by name in the object. -/
inductive ReadsDeps (Δ : Env) (nm : List Bytes → Bytes → Prop) (ea : Bool) (jm : JMems) : List DMember → List Val → Prop
  | nil : ReadsDeps Δ nm ea jm [] []
  | found {m ms d v vs} : jm.get? m.name = some d → d ≠ .null → ReadsDep Δ nm ea jm m.ty d v → ReadsDeps Δ nm ea jm ms vs →
      ReadsDeps Δ nm ea jm (m :: ms) ((if m.opt then .some v else v) :: vs)
  | null {m ms vs} : m.opt = true → jm.get? m.name = some .null → ReadsDeps Δ nm ea jm ms vs →
      ReadsDeps Δ nm ea jm (m :: ms) (.none :: vs)
  | absent {m ms vs} : m.opt = true → jm.get? m.name = none → ReadsDeps Δ nm ea jm ms vs →
      ReadsDeps Δ nm ea jm (m :: ms) (.none :: vs)

/-- The object is, as a class with members `ms`, the value: every mapped name occurs at most once; if all members must be mapped there are
no others. -/
structure ReadsClass (Δ : Env) (nm : List Bytes → Bytes → Prop) (ea ex : Bool) (jm : JMems) (ms : List DMember) (vs : List Val) : Prop where
  names : ∀ n ∈ jm.names, nm (ms.map DMember.name) n
  once : ∀ m ∈ ms, jm.names.count m.name ≤ 1
  exact : (ex || ea) = true → ∀ n ∈ jm.names, ∃ m ∈ ms, m.name = n
  mems : ReadsDeps Δ nm ea jm ms vs

/-- A name that is not taken for a path of several steps. -/
def OneStep (n : Bytes) : Prop := n ≠ [] ∧ ∀ c ∈ n, c ≠ 0x2E ∧ c ≠ 0x5B ∧ c ≠ 0x5D ∧ c ≠ 0x5C

/-- What is asked of the place of the member in the object, `p` being its position in the mapping and `v` its value.
* A variant whose value is a number or a string, or holds a boolean that may be a string, is not passed over in the search for another member: it stands behind the members mapped
  before it.
* A sized array is not passed over either or it stands behind its size.
* An empty array of pairs has nothing between its brackets. -/
def PlaceOk (jm : JMems) (N : List Bytes) (p : Nat) (m : DMember) (v : Val) : Prop :=
  match m.ty with
  | .plain _ => True
  | .tagged .. => jm.InPlace N p ∨ ∀ d, jm.get? m.name = some d → d.jkind ≠ .number ∧ d.jkind ≠ .string ∧ v.bareLit = false
  | .sized size _ => OneStep size.name ∧ (jm.InPlace N p ∨ jm.Before size.name m.name)
  | .pairs _ => ∀ w, jm.get? m.name = some (.arr w .nil) → w = []

/-! ## Values that can be written -/

/-- The value of a member that is there: it is not nullable or not empty. -/
def Present (m : DMember) (v : Val) : Prop := m.opt = false ∨ v ≠ .none

/-- What a member needs beside itself in the object: the tag that goes with the whole value, or the size, a declared member. -/
def Needs (ms : List DMember) (vs : List Val) : DTy → Member → Val → Prop
  | .tagged tag _ wr _, d, x => d = tag ∧ x = wr vs
  | .sized size _, d, x => d = size ∧ ∃ m, (m, x) ∈ ms.zip vs ∧ m.name = size.name
  | _, _, _ => False

/-- The value is of the type; `vs` are the values of all members `ms` of the class.  The tag is that of the alternative that is held; the
size with which an array was constructed is that of its size member.  A key or value of an array of pairs is not nullable. -/
def HasDep (Δ : Env) (P T : Bytes → Prop) (ms : List DMember) (vs : List Val) (d : DTy) (v : Val) : Prop :=
  match d with
  | .plain ty => v ≠ .none ∧ HasTy Δ P T ty v
  | .tagged tag sw wr alts => ∃ k x ty, v = .alt k x ∧ x ≠ .none ∧ alts[k]? = some ty ∧ HasTy Δ P T ty x ∧
      wr vs ≠ .none ∧ HasTy Δ P T tag.ty (wr vs) ∧ sw (wr vs) = k
  | .sized size elem => ∃ n x xs, v = .cls [.int (n % 2 ^ 64), .arr xs] ∧ HasTy Δ P T (.arr elem) (.arr xs) ∧
      x = .int n ∧ Needs ms vs d size x ∧ HasTy Δ P T size.ty x
  | .pairs i => ∃ k x ex xs, v = .arr xs ∧ Δ i = .obj [k, x] ex ∧ k.ty.isOpt = false ∧ x.ty.isOpt = false ∧ HasTy Δ P T (.arr (.ref i)) (.arr xs)

/-- Same, for a member that may be nullable. -/
def HasSlot (Δ : Env) (P T : Bytes → Prop) (ms : List DMember) (vs : List Val) (m : DMember) (v : Val) : Prop :=
  if m.opt then v = .none ∨ ∃ x, v = .some x ∧ HasDep Δ P T ms vs m.ty x else HasDep Δ P T ms vs m.ty v

/-- A value of the class that an object can tell.
* Two members that need a member with the same name need the same member with the same value.
* If what is needed is a declared member, then that is not nullable, of the same type, and has that value.
* Members that need another one and are nullable with `JsonNullable::NullVisible` have a value. -/
structure Consistent (Δ : Env) (P T : Bytes → Prop) (ms : List DMember) (vs : List Val) : Prop where
  visible : ∀ m v, (m, v) ∈ ms.zip vs → m.vis = true → (∃ ty, m.ty = .plain ty) ∨ (∃ i, m.ty = .pairs i) ∨ Present m v
  names : (ms.map DMember.name).Nodup
  length : ms.length = vs.length
  values : ∀ m v, (m, v) ∈ ms.zip vs → HasSlot Δ P T ms vs m v
  agree : ∀ m v m' v' d d' x x', (m, v) ∈ ms.zip vs → (m', v') ∈ ms.zip vs → Present m v → Present m' v' → Needs ms vs m.ty d x →
    Needs ms vs m'.ty d' x' → d.name = d'.name → d = d' ∧ x = x'
  declared : ∀ m v d x m' v', (m, v) ∈ ms.zip vs → Present m v → Needs ms vs m.ty d x → (m', v') ∈ ms.zip vs → m'.name = d.name →
    m'.opt = false ∧ m'.ty = .plain d.ty ∧ v' = x

/-- A value that is written as an array, an object or a literal. -/
def _root_.Verif.Val.boxed : Val → Bool
  | .arr _ | .map _ | .cls _ | .bool _ => true
  | _ => false

/-- The names can be written and are not mistaken for one another: `nm N n` says that `n` is not mistaken for one of the names `N`.  If unmapped
members are errors (`ex`) then everything that is needed is declared; if they are errors for all classes (`ea`) there are no tagged variants. -/
structure TellApart (nm : List Bytes → Bytes → Prop) (ea ex : Bool) (ms : List DMember) (vs : List Val) : Prop where
  own : ∀ m ∈ ms, IsStrBody m.name ∧ nm (ms.map DMember.name) m.name
  need : ∀ m v d x, (m, v) ∈ ms.zip vs → Present m v → Needs ms vs m.ty d x → IsStrBody d.name ∧ nm (ms.map DMember.name) d.name ∧
    ((ex || ea) = true → ∃ m' ∈ ms, m'.name = d.name)
  tags : ∀ m v tag sw wr alts, (m, v) ∈ ms.zip vs → Present m v → m.ty = .tagged tag sw wr alts → ea = false ∧
    (∀ n ∈ ms, nm [tag.name] n.name) ∧ ∀ m' v' d x, (m', v') ∈ ms.zip vs → Present m' v' → Needs ms vs m'.ty d x → nm [tag.name] d.name

/-- What the order of the members must be like.
* In front of a variant that holds a number or a string there is no empty member.
* The name of a size is not a path. -/
def Ordered (ms : List DMember) (vs : List Val) : Prop :=
  ∀ (p : Nat) m v, ms[p]? = some m → vs[p]? = some v → Present m v →
    match m.ty with
    | .tagged .. => (∃ k x, (v = .alt k x ∨ v = .some (.alt k x)) ∧ x.boxed = true) ∨
        ∀ (j : Nat) m' v', j < p → ms[j]? = some m' → vs[j]? = some v' → Present m' v'
    | .sized size _ => OneStep size.name
    | _ => True

end Verif.Spec
