import Verif.Model.Report

/-!
# The member an exception names, in classes inside of others

`missing_member` is thrown by the innermost class; the functions around it let the exception pass.
-/

namespace Verif

/-- The name in an exception that comes out of `parse_class_member` for a member that is found: `daw_json_parse_class.h` L119-135.  `qU`, `qK`: the
names in exceptions out of the parse of the value, by type. -/
def memberMiss (t : TCfg) (exact : Bool) (names : List Bytes) (qU : Ty → Bytes → Option Bytes) (qK : Ty → Range → Bytes → Option Bytes)
    (pos : Nat) (m : Member) (locs : Locs) (bs : Bytes) : Option Bytes :=
  match moveNext t.cfg bs with
  | .ok b =>
    if !t.cfg.checked || headIs (fun c => c == chQuote || c == chRBrace) b then
      match findMember t exact names pos m.ty.isOpt locs b with
      | .ok (.here, _, b) => qU m.ty b
      | .ok (.known r after, _, _) => qK m.ty r after
      | _ => none
    else none
  | _ => none

/-- As `missingNamed`, the class being the one named or one inside of it: `daw_json_parse_class.h` L93-151, expanded in L241-245. -/
def missMembers (t : TCfg) (exact : Bool) (names : List Bytes) (pU : Ty → Bytes → Res (Val × Bytes)) (pK : Ty → Range → Bytes → Res Val)
    (qU : Ty → Bytes → Option Bytes) (qK : Ty → Range → Bytes → Option Bytes) (pos : Nat) (ms : List Member) (locs : Locs) (bs : Bytes) :
    Option Bytes :=
  match ms with
  | [] => none
  | m :: ms =>
    if memberMissing t exact names pos m locs bs then some m.name
    else match classMember t exact names pU pK pos m locs bs with
      | .ok (_, locs, b) => missMembers t exact names pU pK qU qK (pos + 1) ms locs b
      | _ => memberMiss t exact names qU qK pos m locs bs

/-- The name in an exception out of `parse_json_class`, `daw_json_parse_class.h` L182-277. -/
def missObj (t : TCfg) (exact : Bool) (ms : List Member) (pU : Ty → Bytes → Res (Val × Bytes)) (pK : Ty → Range → Bytes → Res Val)
    (qU : Ty → Bytes → Option Bytes) (qK : Ty → Range → Bytes → Option Bytes) (bs : Bytes) : Option Bytes :=
  match trim t.cfg bs with
  | .ok b =>
    if !t.cfg.checked || headIs (· == chLBrace) b then
      match trim t.cfg b.tail with
      | .ok b => missMembers t exact (ms.map Member.name) pU pK qU qK 0 ms (ms.map fun _ => none) b
      | _ => none
    else none
  | _ => none

/-- The name in an exception out of the loop over the elements of an array, `daw_json_parse_array_iterator.h` L114-158: as `arrLoop`. -/
def missArrLoop (cfg : Cfg) (p : Bytes → Res (Val × Bytes)) (q : Bytes → Option Bytes) (bs : Bytes) : Option Bytes :=
  if cfg.checked && bs.isEmpty then none
  else match p bs with
    | .ok (_, b) =>
      match (do
          let b ← trim cfg b
          assertWeak cfg.checked (headIs (fun c => c == chComma || c == chRBrack) b) .unexpectedEndOfData
          let b ← moveNext cfg b
          assertWeak cfg.checked (!b.isEmpty) .unexpectedEndOfData
          let c ← deref b
          .ok (b, c) : Res (Bytes × UInt8)) with
      | .ok (b, c) => if c = chRBrack then none else if _h : b.length < bs.length then missArrLoop cfg p q b else none
      | _ => none
    | _ => q bs
termination_by bs.length

/-- The name in an exception out of `parse_value_array`, `daw_json_parse_value.h` L672-689. -/
def missArr (cfg : Cfg) (p : Bytes → Res (Val × Bytes)) (q : Bytes → Option Bytes) (bs : Bytes) : Option Bytes :=
  match (do
      let b ← trim cfg bs
      assertWeak cfg.checked (headIs (· == chLBrack) b) .invalidArrayStart
      let b ← trimUncheckedEnd cfg b.tail
      let c ← derefEnd cfg b
      .ok (b, c) : Res (Bytes × UInt8)) with
  | .ok (b, c) => if c = chRBrack then none else missArrLoop cfg p q b
  | _ => none

/-- The name in an exception out of the loop over the pairs of a map, `daw_json_parse_kv_class_iterator.h` L113-160: as `mapLoop`. -/
def missMapLoop (cfg : Cfg) (p : Bytes → Res (Val × Bytes)) (q : Bytes → Option Bytes) (bs : Bytes) : Option Bytes :=
  match (do
      assertWeak cfg.checked (!bs.isEmpty) .unexpectedEndOfData
      let (_, b) ← parseStr cfg true bs
      trimEndOfName cfg b : Res Bytes) with
  | .ok b₁ =>
    match p b₁ with
    | .ok (_, b) =>
      match (do
          let b ← moveNext cfg b
          assertWeak cfg.checked (!b.isEmpty) .unexpectedEndOfData
          let c ← deref b
          .ok (b, c) : Res (Bytes × UInt8)) with
      | .ok (b, c) => if c = chRBrace then none else if _h : b.length < bs.length then missMapLoop cfg p q b else none
      | _ => none
    | _ => q b₁
  | _ => none
termination_by bs.length

/-- The name in an exception out of `parse_value_keyvalue`, `daw_json_parse_value.h` L621-641. -/
def missMap (cfg : Cfg) (p : Bytes → Res (Val × Bytes)) (q : Bytes → Option Bytes) (bs : Bytes) : Option Bytes :=
  match (do
      assertWeak cfg.checked (headIs (· == chLBrace) bs) .expectedKeyValueToStartWithBrace
      let b ← trim cfg bs.tail
      ensure (!b.isEmpty) .unexpectedEndOfData
      let c ← deref b
      .ok (b, c) : Res (Bytes × UInt8)) with
  | .ok (b, c) => if c = chRBrace then none else missMapLoop cfg p q b
  | _ => none

/-- The name in an exception out of the elements of a tuple, `daw_json_parse_value.h` L1032-1090: as `tupMembers`. -/
def missTupMembers (cfg : Cfg) (pU : Ty → Bytes → Res (Val × Bytes)) (qU : Ty → Bytes → Option Bytes) (ts : List Ty) (bs : Bytes) : Option Bytes :=
  match ts with
  | [] => none
  | ty :: ts =>
    if cfg.checked && bs.isEmpty then none
    else match pU ty bs with
      | .ok (_, b) =>
        match moveNext cfg b with
        | .ok b => missTupMembers cfg pU qU ts b
        | _ => none
      | _ => qU ty bs

/-- The name in an exception out of `parse_tuple_value`, `daw_json_parse_value.h` L1005-1148. -/
def missTup (cfg : Cfg) (ts : List Ty) (pU : Ty → Bytes → Res (Val × Bytes)) (qU : Ty → Bytes → Option Bytes) (bs : Bytes) : Option Bytes :=
  match (do
      let b ← trim cfg bs
      assertWeak cfg.checked (headIs (· == chLBrack) b) .invalidArrayStart
      let b ← moveNext cfg b.tail
      trim cfg b : Res Bytes) with
  | .ok b => missTupMembers cfg pU qU ts b
  | _ => none

/-- The name in an exception out of `parse_ordered_class_member`, `daw_json_parse_class.h` L45-81, for the members left: as `ordMembers`.  A missing member of such
a class has no name of its own, L72-75. -/
def missOrdMembers (cfg : Cfg) (pU : Ty → Bytes → Res (Val × Bytes)) (qU : Ty → Bytes → Option Bytes) (idx : Nat) (ms : List (Option Nat × Ty))
    (bs : Bytes) : Option Bytes :=
  match ms with
  | [] => none
  | (want, ty) :: ms =>
    match (do
        let b ← moveNext cfg bs
        let (idx, b) ← (match want with
          | some w => maybeSkip cfg ty.isOpt idx w b
          | none => do
            assertWeak cfg.checked (!b.isEmpty) .unexpectedEndOfData
            .ok (idx, b) : Res (Nat × Bytes))
        let c ← derefEnd cfg b
        .ok (idx, b, c) : Res (Nat × Bytes × UInt8)) with
    | .ok (idx, b, c) =>
      if c = chRBrack then
        if ty.isOpt then missOrdMembers cfg pU qU (idx + 1) ms b else some asc! "ordered_class_member"
      else match pU ty b with
        | .ok (_, b) => missOrdMembers cfg pU qU (idx + 1) ms b
        | _ => qU ty b
    | _ => none

/-- The name in an exception out of `parse_json_tuple_class`, `daw_json_parse_class.h` L284-345. -/
def missOrd (cfg : Cfg) (ms : List (Option Nat × Ty)) (pU : Ty → Bytes → Res (Val × Bytes)) (qU : Ty → Bytes → Option Bytes) (bs : Bytes) : Option Bytes :=
  match (do
      let b ← trim cfg bs
      assertWeak cfg.checked (headIs (· == chLBrack) b) .invalidArrayStart
      trim cfg b.tail : Res Bytes) with
  | .ok b => missOrdMembers cfg pU qU 0 ms b
  | _ => none

mutual
/-- The name in the `missing_member` that comes out of `parse_value<JsonMember, false>`, `daw_json_parse_value.h` L1176-1222; the cases are those of `parseU`. -/
def missU (t : TCfg) (Δ : Env) (fuel : Nat) (ty : Ty) (bs : Bytes) : Option Bytes :=
  match fuel with
  | 0 => none
  | f + 1 =>
    match ty with
    | .bool => none
    | .int _ _ => none
    | .str _ => none
    | .txt _ => none
    | .opt ty =>
      match eatNull t.cfg bs with
      | .ok none => missU t Δ f ty bs
      | _ => none
    | .arr ty => missArr t.cfg (parseU t Δ f ty) (missU t Δ f ty) bs
    | .map ty => missMap t.cfg (parseU t Δ f ty) (missU t Δ f ty) bs
    | .ref i =>
      match Δ i with
      | .obj ms exact =>
        if t.cfg.checked && bs.isEmpty then none
        else missObj t (exact || t.exactAll) ms (parseU t Δ f) (parseK t Δ f) (missU t Δ f) (missK t Δ f) bs
      | .tup ts _ => missTup t.cfg ts (parseU t Δ f) (missU t Δ f) bs
      | .ord ms _ =>
        if t.cfg.checked && bs.isEmpty then none
        else missOrd t.cfg ms (parseU t Δ f) (missU t Δ f) bs
      | .var alts =>
        match (do
            let c ← derefEnd t.cfg bs
            altOfChar t.cfg Δ alts c : Res (Nat × Ty)) with
        | .ok a => missU t Δ f a.2 bs
        | _ => none
      | .ivar tag sw alts =>
        if t.cfg.checked && bs.isEmpty then none
        else match parseObj t t.exactAll [tag] (parseU t Δ f) (parseK t Δ f) bs with
          | .ok (x, _) =>
            match altOfTag t.cfg sw alts x with
            | .ok a => missU t Δ f a.2 bs
            | _ => none
          | _ => missObj t t.exactAll [tag] (parseU t Δ f) (parseK t Δ f) (missU t Δ f) (missK t Δ f) bs
/-- The same for `parse_value<JsonMember, true>`; the cases are those of `parseK`. -/
def missK (t : TCfg) (Δ : Env) (fuel : Nat) (ty : Ty) (r : Range) (after : Bytes) : Option Bytes :=
  match fuel with
  | 0 => none
  | f + 1 =>
    match ty with
    | .bool => none
    | .int _ _ => none
    | .str _ => none
    | .txt _ => none
    | .opt ty => if r.null then none else missK t Δ f ty r after
    | .arr ty => missArr (t.inside r).cfg (parseU (t.inside r) Δ f ty) (missU (t.inside r) Δ f ty) (r.seen t.cfg after)
    | .map ty => missMap (t.inside r).cfg (parseU (t.inside r) Δ f ty) (missU (t.inside r) Δ f ty) (r.seen t.cfg after)
    | .ref i =>
      match Δ i with
      | .obj ms exact =>
        if t.cfg.checked && r.text.isEmpty then none
        else missObj (t.inside r) (exact || t.exactAll) ms (parseU (t.inside r) Δ f) (parseK (t.inside r) Δ f) (missU (t.inside r) Δ f)
          (missK (t.inside r) Δ f) (r.seen t.cfg after)
      | .tup ts _ => missTup (t.inside r).cfg ts (parseU (t.inside r) Δ f) (missU (t.inside r) Δ f) (r.seen t.cfg after)
      | .ord ms _ =>
        if t.cfg.checked && r.text.isEmpty then none
        else missOrd (t.inside r).cfg ms (parseU (t.inside r) Δ f) (missU (t.inside r) Δ f) (r.seen t.cfg after)
      | .var alts =>
        match altOfRange t.cfg Δ alts r with
        | .ok a => missK t Δ f a.2 r after
        | _ => none
      | .ivar tag sw alts =>
        if t.cfg.checked && r.text.isEmpty then none
        else match parseObj (t.inside r) t.exactAll [tag] (parseU (t.inside r) Δ f) (parseK (t.inside r) Δ f) (r.seen t.cfg after) with
          | .ok (x, _) =>
            match altOfTag t.cfg sw alts x with
            | .ok a => missU (t.inside r) Δ f a.2 (r.seen t.cfg after)
            | _ => none
          | _ => missObj (t.inside r) t.exactAll [tag] (parseU (t.inside r) Δ f) (parseK (t.inside r) Δ f) (missU (t.inside r) Δ f)
              (missK (t.inside r) Δ f) (r.seen t.cfg after)
end

/-- What `reason( )` says of the `missing_member` that `from_json<T>( bs )` throws, `daw_from_json.h` L36-84, `daw_json_exception.h` L249-270: with `raiseMember`,
whose place is not looked at by `reason( )`. -/
def missReason (t : TCfg) (Δ : Env) (fuel : Nat) (ty : Ty) (bs : Bytes) : Option (Res Bytes) :=
  if bs.isEmpty then none
  else (missU t Δ fuel ty (if bs.getLast? = some 0 then bs.dropLast else bs)).map fun n => (raiseMember n none none).text

end Verif
