import Verif.Model.Write
import Verif.Spec.Write
import Verif.Proof.StrDecode
import Verif.Proof.Text
import Verif.Proof.RealWrite
import Verif.Props.Int

/-!
# The document the writer writes

`layVal` is the document, with its layout; `writeVal` writes the text of it.
-/

namespace Verif

open Spec

/-- The text of the elements, the first without a comma. -/
def Spec.JElems.text1 : JElems → Bytes
  | .nil => []
  | .cons pre v post tl => pre ++ (v.text ++ (post ++ tl.text))

/-- The same without the first `p` bytes of whitespace. -/
def Spec.JElems.inner (p : Nat) : JElems → Bytes
  | .nil => []
  | .cons pre v post tl => pre.drop p ++ (v.text ++ (post ++ tl.text))

/-- The text of the members, the first without a comma. -/
def Spec.JMems.text1 : JMems → Bytes
  | .nil => []
  | .cons pre n pc qc v post tl =>
    pre ++ (0x22 :: (n ++ (0x22 :: (pc ++ (0x3A :: (qc ++ (v.text ++ (post ++ tl.text))))))))

theorem arr_text1 (w : Bytes) (es : JElems) : (JVal.arr w es).text = 0x5B :: (es.text1 ++ (w ++ [0x5D])) := by
  cases es <;> simp [JVal.text, JElems.text1]

theorem obj_text1 (w : Bytes) (ms : JMems) : (JVal.obj w ms).text = 0x7B :: (ms.text1 ++ (w ++ [0x7D])) := by
  cases ms <;> simp [JVal.text, JMems.text1]

/-- Elements after the first. -/
theorem elems_text0 (es : JElems) : es.text = (match es with | .nil => [] | _ => 0x2C :: es.text1) := by
  cases es <;> simp [JElems.text, JElems.text1]

theorem mems_text0 (ms : JMems) : ms.text = (match ms with | .nil => [] | _ => 0x2C :: ms.text1) := by
  cases ms <;> simp [JMems.text, JMems.text1]

/-- The `null`s in front of a member with a gap. -/
def gapElems (w : WCfg) (n : Nat) : Nat → JElems → JElems
  | 0, es => es
  | k + 1, es => .cons (nextMember w n ++ nextMember w n) .null [] (gapElems w n k es)

open Classical in
/-- The document with the text. -/
noncomputable def docOf (s : Bytes) : JVal :=
  if h : ∃ d : JVal, d.WF ∧ d.text = s then h.choose else .null

theorem docOf_of {d : JVal} (h : d.WF) : (docOf d.text).WF ∧ (docOf d.text).text = d.text := by
  unfold docOf
  have h' : ∃ d' : JVal, d'.WF ∧ d'.text = d.text := ⟨d, h, rfl⟩
  rw [dif_pos h']
  exact h'.choose_spec

theorem docOf_cases (s : Bytes) : ((docOf s).WF ∧ (docOf s).text = s) ∨ docOf s = .null := by
  by_cases h : ∃ d : JVal, d.WF ∧ d.text = s
  · obtain ⟨d, h1, rfl⟩ := h
    exact Or.inl (docOf_of h1)
  · exact Or.inr (by rw [docOf, dif_neg h])

/-- The document written for text. -/
noncomputable def layTxt (seven : Bool) (k : TxtKind) (s : Bytes) : Res JVal :=
  match k with
  | .rawStr ah => do
    let x ← writeUnescaped (!ah || seven) s
    .ok (.str x)
  | .date | .real .. | .quoted .. => .ub
  | .custom .lit => do
    let x ← writeUnescaped seven s
    .ok (docOf x)
  | .custom _ => do
    let x ← writeUnescaped seven s
    .ok (.str x)
  | .raw => do
    let x ← writeUnescaped seven s
    .ok (docOf x)

/-- The document written for a literal that is or may be a string. -/
def layLit (al : Bool) (l : LitTy) (x : Lit) : Res JVal :=
  match x with
  | .bool b =>
    match l with
    | .bool => .ok (if al then .str (if b then txtTrue else txtFalse) else if b then .tru else .fls)
    | _ => .ub
  | .int i =>
    match l with
    | .int t _ => .ok (if al then .str (writeInt t i) else .num (writeInt t i))
    | _ => .ub

theorem layLit_cases {al : Bool} {l : LitTy} {x : Lit} (h : HasLit l x) : ∃ d b, layLit al l x = .ok d ∧ LitText l b x ∧
    writeLit al l x = .ok d.text ∧ (al = true ∧ d = .str b ∨ al = false ∧ d.text = b ∧ (d = .tru ∨ d = .fls ∨ d = .num b ∧ ∃ i, x = .int i ∧ IsNumeral b i)) := by
  match l, x, h with
  | .bool, .bool true, _ =>
    cases al
    · exact ⟨.tru, _, rfl, .tru, rfl, Or.inr ⟨rfl, rfl, Or.inl rfl⟩⟩
    · exact ⟨.str _, _, rfl, .tru, rfl, Or.inl ⟨rfl, rfl⟩⟩
  | .bool, .bool false, _ =>
    cases al
    · exact ⟨.fls, _, rfl, .fls, rfl, Or.inr ⟨rfl, rfl, Or.inr (Or.inl rfl)⟩⟩
    · exact ⟨.str _, _, rfl, .fls, rfl, Or.inl ⟨rfl, rfl⟩⟩
  | .int t rc, .int i, h =>
    have hn := C14_output_is_canonical t i h.2
    cases al
    · exact ⟨.num _, _, rfl, .int h.1 h.2 hn, rfl, Or.inr ⟨rfl, rfl, Or.inr (Or.inr ⟨rfl, _, rfl, hn⟩)⟩⟩
    · exact ⟨.str _, _, rfl, .int h.1 h.2 hn, rfl, Or.inl ⟨rfl, rfl⟩⟩

theorem litText_plain {l : LitTy} {b : Bytes} {x : Lit} (h : LitText l b x) : ∀ c ∈ b, IsPlain c := by
  cases h with
  | tru => unfold IsPlain; decide
  | fls => unfold IsPlain; decide
  | int _ _ hn =>
    have hd : ∀ ds : Bytes, IsDigits ds → ∀ c ∈ ds, IsPlain c := fun ds h c hc => by
      have := h.2 c hc
      unfold IsDig at this
      unfold IsPlain
      obtain ⟨h1, h2⟩ := this
      refine ⟨le_trans (b := 0x30) (by decide) h1, ?_, ?_⟩ <;> rintro rfl <;> revert h1 h2 <;> decide
    unfold IsNumeral at hn
    split at hn
    · obtain ⟨ds, rfl, h, -⟩ := hn
      intro c hc
      rcases List.mem_cons.1 hc with rfl | hc
      · unfold IsPlain; decide
      · exact hd _ (isInt_digits h) c hc
    · exact hd _ (isInt_digits hn.1)

theorem litText_body {l : LitTy} {b : Bytes} {x : Lit} (h : LitText l b x) : IsStrBody b := by
  simpa using isStrBody_plain (litText_plain h) .nil

mutual
/-- The document written for a value. -/
noncomputable def layVal (w : WCfg) (Δ : Env) (n : Nat) (ty : Ty) (v : Val) : Res JVal :=
  match v with
  | .bool b => .ok (if b then .tru else .fls)
  | .int i =>
    match ty with
    | .int t _ => .ok (.num (writeInt t i))
    | _ => .ub
  | .str s =>
    match ty with
    | .str ah => do
      let b ← writeStrBody (!ah || w.only7bit) w.errInvalid s
      .ok (.str b)
    | _ => .ub
  | .txt s =>
    match ty with
    | .txt k => layTxt w.only7bit k s
    | _ => .ub
  | .date x =>
    match ty with
    | .txt .date => do
      let c ← timePointToCivil x
      .ok (.str (civilText c))
    | _ => .ub
  | .real x =>
    match ty with
    | .txt (.real dbl fmt) => do
      let t ← toChars dbl fmt x.neg x.sig x.exp
      .ok (.num t)
    | _ => .ub
  | .lit x =>
    match ty with
    | .txt (.quoted al l) => layLit al l x
    | _ => .ub
  | .none => .ok .null
  | .some v =>
    match ty with
    | .opt ty => layVal w Δ n ty v
    | _ => .ub
  | .arr vs =>
    match ty with
    | .arr ty => do
      let es ← layElems w Δ (n + 1) ty vs
      .ok (.arr (closing w n vs.isEmpty) es)
    | _ => .ub
  | .map kvs =>
    match ty with
    | .map ty => do
      let ms ← layPairs w Δ (n + 1) ty kvs
      .ok (.obj (closing w n kvs.isEmpty) ms)
    | _ => .ub
  | .cls vs =>
    match ty with
    | .ref i =>
      match Δ i with
      | .obj ms _ => do
        let jm ← layMembers w Δ (n + 1) ms vs
        .ok (.obj (closing w n ms.isEmpty) jm)
      | .tup ts _ => do
        let es ← layTuple w Δ (n + 1) ts vs
        .ok (.arr (if ts.isEmpty then nextMember w (n + 1) else closing w n false) es)
      | .ord ms _ => do
        let es ← layOrdered w Δ (n + 1) 0 ms vs
        .ok (.arr (if ms.isEmpty then nextMember w (n + 1) else closing w n false) es)
      | _ => .ub
    | _ => .ub
  | .alt k v =>
    match (altTys Δ ty)[k]? with
    | some ty => layVal w Δ n ty v
    | none => .ub
/-- Elements of an array. -/
noncomputable def layElems (w : WCfg) (Δ : Env) (n : Nat) (ty : Ty) (vs : List Val) : Res JElems :=
  match vs with
  | [] => .ok .nil
  | v :: vs => do
    let d ← layVal w Δ n ty v
    let es ← layElems w Δ n ty vs
    .ok (.cons (nextMember w n) d [] es)
/-- Pairs of a map. -/
noncomputable def layPairs (w : WCfg) (Δ : Env) (n : Nat) (ty : Ty) (kvs : List (Bytes × Val)) : Res JMems :=
  match kvs with
  | [] => .ok .nil
  | (k, v) :: kvs => do
    let b ← writeStrBody (false || w.only7bit) w.errInvalid k
    let d ← layVal w Δ n ty v
    let es ← layPairs w Δ n ty kvs
    .ok (.cons (nextMember w n) b [] (spaceText w) d [] es)
/-- Members of a class. -/
noncomputable def layMembers (w : WCfg) (Δ : Env) (n : Nat) (ms : List Member) (vs : List Val) : Res JMems :=
  match vs with
  | [] => .ok .nil
  | v :: vs =>
    match ms with
    | [] => .ub
    | m :: ms =>
      if m.ty.isOpt && v.isNone then layMembers w Δ n ms vs
      else do
        let d ← layVal w Δ n m.ty v
        let es ← layMembers w Δ n ms vs
        .ok (.cons (nextMember w n) m.name [] (spaceText w) d [] es)
/-- Components of a tuple. -/
noncomputable def layTuple (w : WCfg) (Δ : Env) (n : Nat) (ts : List Ty) (vs : List Val) : Res JElems :=
  match vs with
  | [] => .ok .nil
  | v :: vs =>
    match ts with
    | [] => .ub
    | ty :: ts => do
      let d ← layVal w Δ n ty v
      let es ← layTuple w Δ n ts vs
      .ok (.cons (nextMember w n) d [] es)
/-- Members of an ordered class. -/
noncomputable def layOrdered (w : WCfg) (Δ : Env) (n idx : Nat) (ms : List (Option Nat × Ty)) (vs : List Val) : Res JElems :=
  match vs with
  | [] => .ok .nil
  | v :: vs =>
    match ms with
    | [] => .ub
    | (want, ty) :: ms => do
      let d ← layVal w Δ n ty v
      let es ← layOrdered w Δ n (idx + 1) ms vs
      .ok (gapElems w n (want.getD idx - idx) (.cons (nextMember w n) d [] es))
end

/-! ## The text -/

theorem hasList_length {Δ : Env} {P T : Bytes → Prop} : ∀ {ts : List Ty} {vs : List Val}, HasList Δ P T ts vs → ts.length = vs.length := by
  intro ts vs
  induction vs generalizing ts with
  | nil => intro h; rw [HasList] at h; simp [h]
  | cons v vs ih =>
    intro h
    cases ts with
    | nil => simp [HasList] at h
    | cons t ts => rw [HasList] at h; simp [ih h.2]

theorem gap_inner (w : WCfg) (n : Nat) (k : Nat) (d : JVal) (es : JElems) :
    (gapElems w n k (.cons (nextMember w n) d [] es)).inner (nextMember w n).length
      = writeGap w n k ++ (d.text ++ es.text) := by
  have h2 : ∀ k, (gapElems w n k (.cons (nextMember w n) d [] es)).text
      = chComma :: (nextMember w n ++ (writeGap w n k ++ (d.text ++ es.text))) := by
    intro k
    induction k with
    | zero => simp [gapElems, JElems.text, writeGap]
    | succ k ih => simp [gapElems, JElems.text, writeGap, ih, JVal.text]
  cases k with
  | zero => simp [gapElems, JElems.inner, writeGap]
  | succ k => simp [gapElems, JElems.inner, writeGap, h2, JVal.text]

theorem gap_text1 (w : WCfg) (n : Nat) (k : Nat) (d : JVal) (es : JElems) :
    (gapElems w n k (.cons (nextMember w n) d [] es)).text1
      = nextMember w n ++ (gapElems w n k (.cons (nextMember w n) d [] es)).inner (nextMember w n).length := by
  cases k <;> simp [gapElems, JElems.inner, JElems.text1]

variable {w : WCfg} {Δ : Env} {P T : Bytes → Prop}

theorem layElems_nil {n : Nat} {ty : Ty} {vs : List Val} {es : JElems} (h : layElems w Δ n ty vs = .ok es) :
    vs.isEmpty = true ↔ es = .nil := by
  cases vs with
  | nil => simp [layElems] at h; simp [h]
  | cons v vs =>
    rw [layElems, Res.bind_eq_ok] at h
    obtain ⟨d, -, h⟩ := h
    rw [Res.bind_eq_ok] at h
    obtain ⟨es', -, h⟩ := h
    cases h
    simp

theorem layPairs_nil {n : Nat} {ty : Ty} {vs : List (Bytes × Val)} {es : JMems} (h : layPairs w Δ n ty vs = .ok es) :
    vs.isEmpty = true ↔ es = .nil := by
  cases vs with
  | nil => simp [layPairs] at h; simp [h]
  | cons v vs =>
    rw [layPairs, Res.bind_eq_ok] at h
    obtain ⟨b, -, h⟩ := h
    rw [Res.bind_eq_ok] at h
    obtain ⟨d, -, h⟩ := h
    rw [Res.bind_eq_ok] at h
    obtain ⟨es', -, h⟩ := h
    cases h
    simp

theorem layTuple_cases {n : Nat} {ts : List Ty} {vs : List Val} {es : JElems} (hl : ts.length = vs.length)
    (h : layTuple w Δ n ts vs = .ok es) :
    (ts = [] ∧ es = .nil) ∨ (ts ≠ [] ∧ ∃ d tl, es = .cons (nextMember w n) d [] tl) := by
  cases vs with
  | nil => simp [layTuple] at h; simp at hl; simp [hl, h]
  | cons v vs =>
    cases ts with
    | nil => simp at hl
    | cons t ts =>
      rw [layTuple, Res.bind_eq_ok] at h
      obtain ⟨d, -, h⟩ := h
      rw [Res.bind_eq_ok] at h
      obtain ⟨es', -, h⟩ := h
      cases h
      exact Or.inr ⟨by simp, _, _, rfl⟩

theorem layOrdered_cases {n idx : Nat} {ts : List (Option Nat × Ty)} {vs : List Val} {es : JElems}
    (hl : ts.length = vs.length) (h : layOrdered w Δ n idx ts vs = .ok es) :
    (ts = [] ∧ es = .nil) ∨ (ts ≠ [] ∧ ∃ k d tl, es = gapElems w n k (.cons (nextMember w n) d [] tl)) := by
  cases vs with
  | nil => simp [layOrdered] at h; simp at hl; simp [hl, h]
  | cons v vs =>
    cases ts with
    | nil => simp at hl
    | cons t ts =>
      rw [layOrdered, Res.bind_eq_ok] at h
      obtain ⟨d, -, h⟩ := h
      rw [Res.bind_eq_ok] at h
      obtain ⟨es', -, h⟩ := h
      cases h
      exact Or.inr ⟨by simp, _, _, _, rfl⟩

theorem elems_text_cons {es : JElems} (h : es ≠ .nil) : es.text = chComma :: es.text1 := by
  cases es <;> simp_all [JElems.text, JElems.text1]

theorem mems_text_cons {es : JMems} (h : es ≠ .nil) : es.text = chComma :: es.text1 := by
  cases es <;> simp_all [JMems.text, JMems.text1]

/-- A variant holds a value of one of its alternatives, which is not an empty nullable value. -/
theorem hasTy_alt {ty : Ty} {k : Nat} {v : Val} (h : HasTy Δ P T ty (.alt k v)) :
    ∃ ty', (altTys Δ ty)[k]? = some ty' ∧ v ≠ .none ∧ HasTy Δ P T ty' v := by
  cases ty <;> simp only [HasTy] at h
  rename_i i
  cases hi : Δ i with
  | obj ms ex => simp only [hi] at h
  | tup ts ex => simp only [hi] at h
  | ord ms ex => simp only [hi] at h
  | var alts =>
    simp only [hi] at h
    obtain ⟨hn, ty', h1, h2⟩ := h
    exact ⟨ty', by simp only [altTys, hi]; exact h1, hn, h2⟩
  | ivar tag sw alts =>
    simp only [hi] at h
    obtain ⟨ht, ty', h1, h2⟩ := h
    obtain ⟨_, _, _, _, _, _, _, _, rfl, _⟩ := ht
    exact ⟨ty', by simp only [altTys, hi]; exact h1, by simp, h2⟩

theorem writeUnescaped_eq {r : Bool} {s x : Bytes} (h : writeUnescaped r s = .ok x) : x = s := by
  unfold writeUnescaped at h
  rw [Res.bind_eq_ok] at h
  obtain ⟨-, -, h⟩ := h
  cases h
  rfl

theorem writeUnescaped_seven {r : Bool} {s : Bytes} (h : Seven r s) : writeUnescaped r s = .ok s := by
  unfold writeUnescaped
  have : (!r || s.all fun c => decide (0x20 ≤ c.toNat) && decide (c.toNat ≤ 0x7F)) = true := by
    cases r with
    | false => rfl
    | true =>
      simp only [Bool.not_true, Bool.false_or, List.all_eq_true, Bool.and_eq_true, decide_eq_true_eq]
      exact h rfl
  rw [this]
  rfl

theorem docOf_hasTxt {k : TxtKind} {s : Bytes} (h : HasTxt k s) (hk : k = .custom .lit ∨ k = .raw) :
    (docOf s).WF ∧ (docOf s).text = s := by
  rcases hk with rfl | rfl
  · obtain ⟨d, h1, -, rfl⟩ := h
    exact docOf_of h1
  · obtain ⟨d, h1, -, -, rfl⟩ := h
    exact docOf_of h1

theorem writeTxt_text {seven : Bool} {k : TxtKind} {s : Bytes} (h : HasTxt k s) :
    writeTxt seven k s = layTxt seven k s >>= fun d => .ok d.text := by
  have e := @docOf_hasTxt k s h
  match k with
  | .rawStr ah =>
    simp only [writeTxt, layTxt]
    cases writeUnescaped (!ah || seven) s <;> simp [JVal.text]
  | .date | .real .. | .quoted .. => exact h.elim
  | .custom .lit =>
    simp only [writeTxt, layTxt]
    cases hw : writeUnescaped seven s with
    | ok x => rw [writeUnescaped_eq hw]; simp [(e (Or.inl rfl)).2]
    | err => rfl
    | ub => rfl
  | .custom .any => exact h.elim
  | .custom .str =>
    simp only [writeTxt, layTxt]
    cases writeUnescaped seven s <;> simp [JVal.text]
  | .raw =>
    simp only [writeTxt, layTxt]
    cases hw : writeUnescaped seven s with
    | ok x => rw [writeUnescaped_eq hw]; simp [(e (Or.inr rfl)).2]
    | err => rfl
    | ub => rfl

mutual
theorem writeVal_text (hΔ : Writable Δ) (n : Nat) (ty : Ty) (v : Val) (h : HasTy Δ P T ty v) :
    writeVal w Δ n ty v = layVal w Δ n ty v >>= fun d => .ok d.text := by
  match v with
  | .bool b =>
    rw [HasTy] at h
    subst h
    cases b <;> simp [writeVal, layVal, JVal.text]
  | .int i =>
    cases ty <;> simp only [HasTy] at h
    simp [writeVal, layVal, JVal.text]
  | .str s =>
    cases ty <;> simp only [HasTy] at h
    simp only [writeVal, layVal, writeStr, WCfg.strOut]
    generalize writeStrBody _ _ _ = x
    cases x <;> simp [JVal.text]
  | .txt s =>
    cases ty <;> simp only [HasTy] at h
    simp only [writeVal, layVal]
    exact writeTxt_text h.2
  | .date x =>
    cases ty <;> simp only [HasTy] at h
    rename_i k
    cases k <;> simp only at h
    simp only [writeVal, layVal, writeDate]
    cases timePointToCivil x <;> simp [JVal.text]
  | .real x =>
    cases ty <;> simp only [HasTy] at h
    rename_i k
    cases k <;> simp only at h
    simp only [writeVal, layVal]
    obtain ⟨t, ht, -⟩ := toChars_reads h
    simp [ht, JVal.text]
  | .lit x =>
    cases ty <;> simp only [HasTy] at h
    rename_i k
    cases k <;> simp only at h
    rename_i al l
    obtain ⟨d, b, h1, -, h2, -⟩ := layLit_cases (al := al) h
    simp [writeVal, layVal, h1, h2]
  | .none =>
    cases ty <;> simp only [HasTy] at h
    simp [writeVal, layVal, JVal.text]
  | .some v =>
    cases ty <;> simp only [HasTy] at h
    simp only [writeVal, layVal]
    exact writeVal_text hΔ n _ v h.2
  | .arr vs =>
    cases ty <;> simp only [HasTy] at h
    rename_i ty
    simp only [writeVal, layVal]
    rw [writeElems_text hΔ (n + 1) ty vs h]
    cases hl : layElems w Δ (n + 1) ty vs with
    | ok es => simp [arr_text1]
    | err e => simp
    | ub => simp
  | .map kvs =>
    cases ty <;> simp only [HasTy] at h
    rename_i ty
    simp only [writeVal, layVal]
    rw [writePairs_text hΔ (n + 1) ty kvs h]
    cases hl : layPairs w Δ (n + 1) ty kvs with
    | ok es => simp [obj_text1]
    | err e => simp
    | ub => simp
  | .cls vs =>
    cases ty <;> simp only [HasTy] at h
    rename_i i
    simp only [writeVal, layVal]
    cases hi : Δ i with
    | obj ms ex =>
      simp only [hi] at h ⊢
      rw [writeMembers_text hΔ (n + 1) [] true ms vs h (hΔ.nodup.nodup i ms ex hi) (by simp)]
      cases hl : layMembers w Δ (n + 1) ms vs with
      | ok es => simp [obj_text1]
      | err e => simp
      | ub => simp
    | tup ts ex =>
      simp only [hi] at h ⊢
      rw [writeTuple_text hΔ (n + 1) ts vs h]
      cases hl : layTuple w Δ (n + 1) ts vs with
      | ok es =>
        rcases layTuple_cases (hasList_length h) hl with ⟨rfl, rfl⟩ | ⟨hne, d, tl, rfl⟩
        · simp [arr_text1, JElems.inner, JElems.text1, closing]
        · have : ts.isEmpty = false := by cases ts <;> simp_all
          simp [arr_text1, JElems.inner, JElems.text1, this]
      | err e => simp
      | ub => simp
    | ord ms ex =>
      simp only [hi] at h ⊢
      have hlen := hasList_length h
      rw [List.length_map] at hlen
      rw [writeOrdered_text hΔ (n + 1) ms.length 0 ms vs h (hΔ.compact i ms ex hi) (by simp)]
      cases hl : layOrdered w Δ (n + 1) 0 ms vs with
      | ok es =>
        rcases layOrdered_cases hlen hl with ⟨rfl, rfl⟩ | ⟨hne, k, d, tl, rfl⟩
        · simp [arr_text1, JElems.inner, JElems.text1, closing]
        · have : ms.isEmpty = false := by cases ms <;> simp_all
          simp [arr_text1, this, gap_text1]
      | err e => simp
      | ub => simp
    | var alts => simp only [hi] at h
    | ivar tag sw alts => simp only [hi] at h
  | .alt k v =>
    obtain ⟨ty', h1, -, h2⟩ := hasTy_alt h
    simp only [writeVal, layVal, h1]
    exact writeVal_text hΔ n ty' v h2

theorem writeElems_text (hΔ : Writable Δ) (n : Nat) (ty : Ty) (vs : List Val) (h : HasElems Δ P T ty vs) :
    writeElems w Δ n ty vs = layElems w Δ n ty vs >>= fun es => .ok es.text1 := by
  match vs with
  | [] => simp [writeElems, layElems, JElems.text1]
  | v :: vs =>
    rw [HasElems] at h
    simp only [writeElems, layElems]
    rw [writeVal_text hΔ n ty v h.1, writeElems_text hΔ n ty vs h.2]
    cases layVal w Δ n ty v with
    | ok d =>
      cases hl : layElems w Δ n ty vs with
      | ok es =>
        have hn := layElems_nil hl
        by_cases hv : vs.isEmpty = true
        · simp [hv, hn.1 hv, JElems.text1, JElems.text]
        · have : es ≠ .nil := fun h => hv (hn.2 h)
          simp [hv, JElems.text1, elems_text_cons this]
      | err e => simp
      | ub => simp
    | err e => simp
    | ub => simp

theorem writePairs_text (hΔ : Writable Δ) (n : Nat) (ty : Ty) (kvs : List (Bytes × Val)) (h : HasPairs Δ P T ty kvs) :
    writePairs w Δ n ty kvs = layPairs w Δ n ty kvs >>= fun es => .ok es.text1 := by
  match kvs with
  | [] => simp [writePairs, layPairs, JMems.text1]
  | (k, v) :: kvs =>
    rw [HasPairs] at h
    simp only [writePairs, layPairs, writeStr, WCfg.strOut]
    rw [writeVal_text hΔ n ty v h.2.1, writePairs_text hΔ n ty kvs h.2.2]
    simp only [Bool.not_true]
    cases writeStrBody (false || w.only7bit) w.errInvalid k with
    | ok b =>
      cases layVal w Δ n ty v with
      | ok d =>
        cases hl : layPairs w Δ n ty kvs with
        | ok es =>
          have hn := layPairs_nil hl
          by_cases hv : kvs.isEmpty = true
          · simp [hv, hn.1 hv, JMems.text1, JMems.text]
          · have : es ≠ .nil := fun h => hv (hn.2 h)
            simp [hv, JMems.text1, mems_text_cons this]
        | err e => simp
        | ub => simp
      | err e => simp
      | ub => simp
    | err e => simp
    | ub => simp

theorem writeMembers_text (hΔ : Writable Δ) (n : Nat) (seen : List Bytes) (first : Bool) (ms : List Member) (vs : List Val)
    (h : HasList Δ P T (ms.map Member.ty) vs) (hnd : (ms.map Member.name).Nodup) (hs : ∀ m ∈ ms, m.name ∉ seen) :
    writeMembers w Δ n seen first ms vs
      = layMembers w Δ n ms vs >>= fun jm => .ok (if first then jm.text1 else jm.text) := by
  match vs with
  | [] =>
    rw [HasList] at h
    have : ms = [] := by simpa using h
    subst this
    cases first <;> simp [writeMembers, layMembers, JMems.text1, JMems.text]
  | v :: vs =>
    cases ms with
    | nil => simp [HasList] at h
    | cons m ms =>
      simp only [List.map_cons, HasList] at h
      simp only [List.map_cons, List.nodup_cons] at hnd
      have hseen : seen.contains m.name = false := by
        have := hs m (by simp)
        simpa using this
      have hs' : ∀ m' ∈ ms, m'.name ∉ m.name :: seen := by
        intro m' hm'
        simp only [List.mem_cons, not_or]
        refine ⟨fun he => hnd.1 ?_, hs m' (by simp [hm'])⟩
        rw [← he]
        exact List.mem_map_of_mem hm'
      simp only [writeMembers, layMembers, hseen, Bool.false_eq_true, if_false]
      split
      · exact writeMembers_text hΔ n _ first ms vs h.2 hnd.2 hs'
      · rw [writeVal_text hΔ n _ v h.1, writeMembers_text hΔ n _ false ms vs h.2 hnd.2 hs']
        cases layVal w Δ n m.ty v with
        | ok d =>
          cases hl : layMembers w Δ n ms vs with
          | ok es => cases first <;> simp [JMems.text1, JMems.text]
          | err e => simp
          | ub => simp
        | err e => simp
        | ub => simp

theorem writeTuple_text (hΔ : Writable Δ) (n : Nat) (ts : List Ty) (vs : List Val) (h : HasList Δ P T ts vs) :
    writeTuple w Δ n ts vs = layTuple w Δ n ts vs >>= fun es => .ok (es.inner (nextMember w n).length) := by
  match vs with
  | [] =>
    rw [HasList] at h
    subst h
    simp [writeTuple, layTuple, JElems.inner]
  | v :: vs =>
    cases ts with
    | nil => simp [HasList] at h
    | cons ty ts =>
      rw [HasList] at h
      simp only [writeTuple, layTuple]
      rw [writeVal_text hΔ n ty v h.1, writeTuple_text hΔ n ts vs h.2]
      cases layVal w Δ n ty v with
      | ok d =>
        cases hl : layTuple w Δ n ts vs with
        | ok es =>
          rcases layTuple_cases (hasList_length h.2) hl with ⟨rfl, rfl⟩ | ⟨hne, d, tl, rfl⟩
          · simp [JElems.inner, JElems.text]
          · have : ts.isEmpty = false := by cases ts <;> simp_all
            simp [JElems.inner, JElems.text, this]
        | err e => simp
        | ub => simp
      | err e => simp
      | ub => simp

theorem writeOrdered_text (hΔ : Writable Δ) (n size idx : Nat) (ms : List (Option Nat × Ty)) (vs : List Val)
    (h : HasList Δ P T (ms.map Prod.snd) vs) (hc : Compact idx ms) (hsz : idx + ms.length = size) :
    writeOrdered w Δ n size idx ms vs
      = layOrdered w Δ n idx ms vs >>= fun es => .ok (es.inner (nextMember w n).length) := by
  match vs with
  | [] =>
    rw [HasList] at h
    have : ms = [] := by simpa using h
    subst this
    simp [writeOrdered, layOrdered, JElems.inner]
  | v :: vs =>
    cases ms with
    | nil => simp [HasList] at h
    | cons m ms =>
      obtain ⟨want, ty⟩ := m
      simp only [List.map_cons, HasList] at h
      simp only [writeOrdered, layOrdered]
      cases ms with
      | nil =>
        have hv : vs = [] := by
          have := hasList_length h.2
          cases vs <;> simp_all
        subst hv
        have hw : idx ≤ want.getD idx := by
          cases want with
          | none => simp
          | some x => exact hc x rfl
        simp only [List.length_cons, List.length_nil] at hsz
        rw [writeVal_text hΔ n ty v h.1, Nat.max_eq_right hw, if_neg (show ¬ want.getD idx + 1 < size by omega)]
        cases layVal w Δ n ty v with
        | ok d => simp [writeOrdered, layOrdered, gap_inner, JElems.text]
        | err e => simp
        | ub => simp
      | cons m' ms =>
        have hw : want.getD idx = idx := by
          cases want with
          | none => rfl
          | some x => exact (hc.1 x rfl).symm
        simp only [List.length_cons] at hsz
        rw [writeVal_text hΔ n ty v h.1, hw, Nat.max_self,
          writeOrdered_text hΔ n size (idx + 1) (m' :: ms) vs h.2 hc.2 (by simp only [List.length_cons]; omega),
          if_pos (show idx + 1 < size by omega), Nat.sub_self]
        cases layVal w Δ n ty v with
        | ok d =>
          cases hl : layOrdered w Δ n (idx + 1) (m' :: ms) vs with
          | ok es =>
            have hlen := hasList_length h.2
            simp only [List.map_cons, List.length_cons, List.length_map] at hlen
            rcases layOrdered_cases (by simpa using hlen) hl with ⟨h0, -⟩ | ⟨hne, k, d', tl, rfl⟩
            · simp at h0
            · have hnn : gapElems w n k (.cons (nextMember w n) d' [] tl) ≠ .nil := by cases k <;> simp [gapElems]
              simp [writeGap, gapElems, JElems.inner, elems_text_cons hnn, gap_text1]
          | err e => simp
          | ub => simp
        | err e => simp
        | ub => simp
end

/-! ## Well-formedness -/

theorem indent_ws (i : Indent) : IsWs i.text := by
  cases i <;> simp [Indent.text, IsWs, isWsByte]

theorem isWs_app {a b : Bytes} (ha : IsWs a) (hb : IsWs b) : IsWs (a ++ b) := by
  intro c hc
  rcases List.mem_append.1 hc with h | h
  · exact ha c h
  · exact hb c h

theorem outputIndent_ws (i : Indent) (n : Nat) : IsWs (outputIndent i n) := by
  induction n with
  | zero => simp [outputIndent, IsWs]
  | succ n ih => exact isWs_app (indent_ws i) ih

theorem nextMember_ws (w : WCfg) (n : Nat) : IsWs (nextMember w n) := by
  unfold nextMember
  split
  · refine isWs_app ?_ (outputIndent_ws _ _)
    split <;> simp [IsWs, isWsByte]
  · simp [IsWs]

theorem spaceText_ws (w : WCfg) : IsWs (spaceText w) := by
  unfold spaceText
  split <;> simp [IsWs, isWsByte]

theorem closing_tail (w : WCfg) (n : Nat) (e : Bool) : IsTail w.tc (closing w n e) := by
  unfold closing trailing
  split
  · exact Or.inl (by simp [IsWs])
  · cases h : w.tc with
    | false => exact Or.inl (by simpa using nextMember_ws w n)
    | true => exact Or.inr ⟨rfl, [], nextMember w n, by simp [IsWs], nextMember_ws w n, by simp⟩

theorem isNumber_of_isNumeral {txt : Bytes} {v : Int} (h : IsNumeral txt v) : IsNumber txt := isNumber_of_numeral h

theorem gapElems_wf {tc : Bool} (n k : Nat) {es : JElems} (h : es.WFt tc) : (gapElems w n k es).WFt tc := by
  induction k with
  | zero => exact h
  | succ k ih => exact ⟨isWs_app (nextMember_ws w n) (nextMember_ws w n), trivial, by simp [IsWs], ih⟩

theorem ws_empty : IsWs [] := by simp [IsWs]

/-- What is written for a time point. -/
theorem date_civil {x : Int} (h0 : 0 ≤ x) (hr : x / 86400000 + 719468 < 2147483648) :
    ∃ c, timePointToCivil x = .ok c ∧ IsStrBody (civilText c) ∧ ((x % 1000 = 0 ∨ 100 ≤ x % 1000) → IsUtcText (civilText c) x) := by
  obtain ⟨y, m, d, h, mi, s, ms, hv, he0, he, hh, hmi, hs, hms, hmt, ht⟩ := exists_instant x h0
  have hd31 := day_le hv
  obtain ⟨txt, ns, e1, e2, e3⟩ := civil_isLocal (y := y) (m := m) (d := d) (h := h) (mi := mi) (s := s) (ms := ms)
    (by have := hv.2.1; omega) (by omega) (by omega) (by omega) (by omega) hms
  have hpl := civilText_plain (y := y) (m := m) (d := d) (h := h) (mi := mi) (s := s) (n := ms * 1000000)
  have e := timePoint_eq hv he0 (by omega) hh hmi hs hms
  rw [← ht] at e
  refine ⟨_, e, ?_, fun hm => ?_⟩
  · have := isStrBody_plain hpl IsStrBody.nil
    rwa [List.append_nil] at this
  · refine ⟨txt, [chUZ], y, m, d, h, mi, s, ns, e1, e2, Or.inr rfl, hv, by omega, by omega, by omega, by omega, ?_⟩
    have e4 : ns / 1000000 = ms := e3.2 (by omega)
    rw [ht]
    unfold instant
    rw [Nat.mul_div_cancel _ (by decide), e4]

theorem isTail_mono {w : Bytes} (h : IsTail false w) (tc : Bool) : IsTail tc w := by
  rcases h with h | ⟨h, -⟩
  · exact Or.inl h
  · simp at h

mutual
theorem wft_mono (tc : Bool) (d : JVal) (h : d.WFt false) : d.WFt tc := by
  match d with
  | .null | .tru | .fls => simp only [JVal.WFt]
  | .num _ | .str _ => simpa only [JVal.WFt] using h
  | .arr w es =>
    simp only [JVal.WFt] at h ⊢
    exact ⟨isTail_mono h.1 tc, wftE_mono tc es h.2⟩
  | .obj w ms =>
    simp only [JVal.WFt] at h ⊢
    exact ⟨isTail_mono h.1 tc, wftM_mono tc ms h.2⟩
theorem wftE_mono (tc : Bool) (d : JElems) (h : d.WFt false) : d.WFt tc := by
  match d with
  | .nil => trivial
  | .cons pre d post tl =>
    simp only [JElems.WFt] at h ⊢
    exact ⟨h.1, wft_mono tc d h.2.1, h.2.2.1, wftE_mono tc tl h.2.2.2⟩
theorem wftM_mono (tc : Bool) (d : JMems) (h : d.WFt false) : d.WFt tc := by
  match d with
  | .nil => trivial
  | .cons pre n pc qc d post tl =>
    simp only [JMems.WFt] at h ⊢
    exact ⟨h.1, h.2.1, h.2.2.1, h.2.2.2.1, wft_mono tc d h.2.2.2.2.1, h.2.2.2.2.2.1, wftM_mono tc tl h.2.2.2.2.2.2⟩
end

/-- What is written for text. -/
theorem layTxt_cases {seven : Bool} {k : TxtKind} {s : Bytes} {d : JVal} (h : HasTxt k s) (hd : layTxt seven k s = .ok d) :
    (d = .str s ∧ ((∃ ah, k = .rawStr ah) ∨ k = .custom .str)) ∨ (d = docOf s ∧ (k = .custom .lit ∨ k = .raw)) := by
  match k with
  | .rawStr ah =>
    simp only [layTxt] at hd
    rw [Res.bind_eq_ok] at hd
    obtain ⟨x, hx, hd⟩ := hd
    cases hd
    rw [writeUnescaped_eq hx]
    exact Or.inl ⟨rfl, Or.inl ⟨_, rfl⟩⟩
  | .date | .real .. | .quoted .. => exact h.elim
  | .custom .any => exact h.elim
  | .custom .str =>
    simp only [layTxt] at hd
    rw [Res.bind_eq_ok] at hd
    obtain ⟨x, hx, hd⟩ := hd
    cases hd
    rw [writeUnescaped_eq hx]
    exact Or.inl ⟨rfl, Or.inr rfl⟩
  | .custom .lit =>
    simp only [layTxt] at hd
    rw [Res.bind_eq_ok] at hd
    obtain ⟨x, hx, hd⟩ := hd
    cases hd
    rw [writeUnescaped_eq hx]
    exact Or.inr ⟨rfl, Or.inl rfl⟩
  | .raw =>
    simp only [layTxt] at hd
    rw [Res.bind_eq_ok] at hd
    obtain ⟨x, hx, hd⟩ := hd
    cases hd
    rw [writeUnescaped_eq hx]
    exact Or.inr ⟨rfl, Or.inr rfl⟩

theorem layTxt_wf {seven tc : Bool} {k : TxtKind} {s : Bytes} {d : JVal} (h : HasTxt k s) (hd : layTxt seven k s = .ok d) : d.WFt tc := by
  rcases layTxt_cases h hd with ⟨rfl, ⟨ah, rfl⟩ | rfl⟩ | ⟨rfl, hk⟩
  · exact h.1
  · exact h.1
  · exact wft_mono tc _ (docOf_hasTxt h hk).1

mutual
theorem layVal_wf (hΔ : Writable Δ) (n : Nat) (ty : Ty) (v : Val) (h : HasTy Δ P T ty v) {d : JVal}
    (hd : layVal w Δ n ty v = .ok d) : d.WFt w.tc := by
  match v with
  | .bool b =>
    simp only [layVal, Res.ok.injEq] at hd
    subst hd
    cases b <;> simp [JVal.WFt]
  | .int i =>
    cases ty <;> simp only [HasTy] at h
    simp only [layVal, Res.ok.injEq] at hd
    subst hd
    exact isNumber_of_isNumeral (C14_output_is_canonical _ _ h.2)
  | .str s =>
    cases ty <;> simp only [HasTy] at h
    simp only [layVal] at hd
    rw [Res.bind_eq_ok] at hd
    obtain ⟨b, hb, hd⟩ := hd
    cases hd
    exact (writeStrBody_body _ _ _ _ hb).1
  | .txt s =>
    cases ty <;> simp only [HasTy] at h
    simp only [layVal] at hd
    exact layTxt_wf h.2 hd
  | .date x =>
    cases ty <;> simp only [HasTy] at h
    rename_i k
    cases k <;> simp only at h
    simp only [layVal] at hd
    rw [Res.bind_eq_ok] at hd
    obtain ⟨c, hc, hd⟩ := hd
    cases hd
    obtain ⟨c', h1, h2, -⟩ := date_civil h.1 h.2.1
    rw [hc] at h1
    cases h1
    exact h2
  | .real x =>
    cases ty <;> simp only [HasTy] at h
    rename_i k
    cases k <;> simp only at h
    obtain ⟨t, ht, hrd⟩ := toChars_reads h
    simp only [layVal, ht, Res.ok_bind, Res.ok.injEq] at hd
    subst hd
    cases hrd with
    | real hnt => exact numText_isNumber hnt
  | .lit x =>
    cases ty <;> simp only [HasTy] at h
    rename_i k
    cases k <;> simp only at h
    rename_i al l
    obtain ⟨d', b, h1, h2, -, h3⟩ := layLit_cases (al := al) h
    simp only [layVal, h1, Res.ok.injEq] at hd
    subst hd
    rcases h3 with ⟨-, rfl⟩ | ⟨-, -, rfl | rfl | ⟨rfl, i, -, hn⟩⟩
    · exact litText_body h2
    · trivial
    · trivial
    · exact isNumber_of_isNumeral hn
  | .none =>
    simp only [layVal, Res.ok.injEq] at hd
    subst hd
    trivial
  | .some v =>
    cases ty <;> simp only [HasTy] at h
    simp only [layVal] at hd
    exact layVal_wf hΔ n _ v h.2 hd
  | .arr vs =>
    cases ty <;> simp only [HasTy] at h
    simp only [layVal] at hd
    rw [Res.bind_eq_ok] at hd
    obtain ⟨es, he, hd⟩ := hd
    cases hd
    exact ⟨closing_tail _ _ _, layElems_wf hΔ _ _ vs h he⟩
  | .map kvs =>
    cases ty <;> simp only [HasTy] at h
    simp only [layVal] at hd
    rw [Res.bind_eq_ok] at hd
    obtain ⟨es, he, hd⟩ := hd
    cases hd
    exact ⟨closing_tail _ _ _, layPairs_wf hΔ _ _ kvs h he⟩
  | .cls vs =>
    cases ty <;> simp only [HasTy] at h
    rename_i i
    simp only [layVal] at hd
    cases hi : Δ i with
    | obj ms ex =>
      simp only [hi] at h hd
      rw [Res.bind_eq_ok] at hd
      obtain ⟨es, he, hd⟩ := hd
      cases hd
      exact ⟨closing_tail _ _ _, layMembers_wf hΔ _ ms vs h (hΔ.names i ms ex hi) he⟩
    | tup ts ex =>
      simp only [hi] at h hd
      rw [Res.bind_eq_ok] at hd
      obtain ⟨es, he, hd⟩ := hd
      cases hd
      refine ⟨?_, layTuple_wf hΔ _ ts vs h he⟩
      split
      · exact Or.inl (nextMember_ws _ _)
      · exact closing_tail _ _ _
    | ord ms ex =>
      simp only [hi] at h hd
      rw [Res.bind_eq_ok] at hd
      obtain ⟨es, he, hd⟩ := hd
      cases hd
      refine ⟨?_, layOrdered_wf hΔ _ _ ms vs h he⟩
      split
      · exact Or.inl (nextMember_ws _ _)
      · exact closing_tail _ _ _
    | var alts => simp only [hi] at h
    | ivar tag sw alts => simp only [hi] at h
  | .alt k v =>
    obtain ⟨ty', h1, -, h2⟩ := hasTy_alt h
    simp only [layVal, h1] at hd
    exact layVal_wf hΔ n ty' v h2 hd

theorem layElems_wf (hΔ : Writable Δ) (n : Nat) (ty : Ty) (vs : List Val) (h : HasElems Δ P T ty vs) {es : JElems}
    (hd : layElems w Δ n ty vs = .ok es) : es.WFt w.tc := by
  match vs with
  | [] =>
    simp only [layElems, Res.ok.injEq] at hd
    subst hd
    trivial
  | v :: vs =>
    rw [HasElems] at h
    simp only [layElems] at hd
    rw [Res.bind_eq_ok] at hd
    obtain ⟨d, h1, hd⟩ := hd
    rw [Res.bind_eq_ok] at hd
    obtain ⟨es', h2, hd⟩ := hd
    cases hd
    exact ⟨nextMember_ws _ _, layVal_wf hΔ n ty v h.1 h1, ws_empty, layElems_wf hΔ n ty vs h.2 h2⟩

theorem layPairs_wf (hΔ : Writable Δ) (n : Nat) (ty : Ty) (kvs : List (Bytes × Val)) (h : HasPairs Δ P T ty kvs) {es : JMems}
    (hd : layPairs w Δ n ty kvs = .ok es) : es.WFt w.tc := by
  match kvs with
  | [] =>
    simp only [layPairs, Res.ok.injEq] at hd
    subst hd
    trivial
  | (k, v) :: kvs =>
    rw [HasPairs] at h
    simp only [layPairs] at hd
    rw [Res.bind_eq_ok] at hd
    obtain ⟨b, h0, hd⟩ := hd
    rw [Res.bind_eq_ok] at hd
    obtain ⟨d, h1, hd⟩ := hd
    rw [Res.bind_eq_ok] at hd
    obtain ⟨es', h2, hd⟩ := hd
    cases hd
    exact ⟨nextMember_ws _ _, (writeStrBody_body _ _ _ _ h0).1, ws_empty, spaceText_ws w, layVal_wf hΔ n ty v h.2.1 h1,
      ws_empty, layPairs_wf hΔ n ty kvs h.2.2 h2⟩

theorem layMembers_wf (hΔ : Writable Δ) (n : Nat) (ms : List Member) (vs : List Val)
    (h : HasList Δ P T (ms.map Member.ty) vs) (hm : ∀ m ∈ ms, IsStrBody m.name) {es : JMems}
    (hd : layMembers w Δ n ms vs = .ok es) : es.WFt w.tc := by
  match vs with
  | [] =>
    simp only [layMembers, Res.ok.injEq] at hd
    subst hd
    trivial
  | v :: vs =>
    cases ms with
    | nil => simp [HasList] at h
    | cons m ms =>
      simp only [List.map_cons, HasList] at h
      simp only [layMembers] at hd
      have hm' : ∀ m ∈ ms, IsStrBody m.name := fun m h => hm m (by simp [h])
      split at hd
      · exact layMembers_wf hΔ n ms vs h.2 hm' hd
      · rw [Res.bind_eq_ok] at hd
        obtain ⟨d, h1, hd⟩ := hd
        rw [Res.bind_eq_ok] at hd
        obtain ⟨es', h2, hd⟩ := hd
        cases hd
        exact ⟨nextMember_ws _ _, hm m (by simp), ws_empty, spaceText_ws w, layVal_wf hΔ n _ v h.1 h1,
          ws_empty, layMembers_wf hΔ n ms vs h.2 hm' h2⟩

theorem layTuple_wf (hΔ : Writable Δ) (n : Nat) (ts : List Ty) (vs : List Val) (h : HasList Δ P T ts vs) {es : JElems}
    (hd : layTuple w Δ n ts vs = .ok es) : es.WFt w.tc := by
  match vs with
  | [] =>
    simp only [layTuple, Res.ok.injEq] at hd
    subst hd
    trivial
  | v :: vs =>
    cases ts with
    | nil => simp [HasList] at h
    | cons ty ts =>
      rw [HasList] at h
      simp only [layTuple] at hd
      rw [Res.bind_eq_ok] at hd
      obtain ⟨d, h1, hd⟩ := hd
      rw [Res.bind_eq_ok] at hd
      obtain ⟨es', h2, hd⟩ := hd
      cases hd
      exact ⟨nextMember_ws _ _, layVal_wf hΔ n ty v h.1 h1, ws_empty, layTuple_wf hΔ n ts vs h.2 h2⟩

theorem layOrdered_wf (hΔ : Writable Δ) (n idx : Nat) (ms : List (Option Nat × Ty)) (vs : List Val)
    (h : HasList Δ P T (ms.map Prod.snd) vs) {es : JElems}
    (hd : layOrdered w Δ n idx ms vs = .ok es) : es.WFt w.tc := by
  match vs with
  | [] =>
    simp only [layOrdered, Res.ok.injEq] at hd
    subst hd
    trivial
  | v :: vs =>
    cases ms with
    | nil => simp [HasList] at h
    | cons m ms =>
      simp only [List.map_cons, HasList] at h
      simp only [layOrdered] at hd
      rw [Res.bind_eq_ok] at hd
      obtain ⟨d, h1, hd⟩ := hd
      rw [Res.bind_eq_ok] at hd
      obtain ⟨es', h2, hd⟩ := hd
      cases hd
      exact gapElems_wf _ _ ⟨nextMember_ws _ _, layVal_wf hΔ n _ v h.1 h1, ws_empty, layOrdered_wf hΔ n _ ms vs h.2 h2⟩
end

/-! ## Strings that are valid UTF-8 are written -/

theorem layTxt_ok {seven : Bool} {k : TxtKind} {s : Bytes} (ht : Seven seven s) (h : HasTxt k s) : ∃ d, layTxt seven k s = .ok d := by
  have hu := writeUnescaped_seven ht
  match k with
  | .rawStr ah =>
    have : Seven (!ah || seven) s := by
      intro he
      cases ah with
      | false => exact h.2 rfl
      | true => exact ht he
    exact ⟨_, by simp only [layTxt, writeUnescaped_seven this]; rfl⟩
  | .date | .real .. | .quoted .. => exact h.elim
  | .custom .any => exact h.elim
  | .custom .str | .custom .lit | .raw => exact ⟨_, by simp only [layTxt, hu]; rfl⟩

mutual
theorem layVal_ok (n : Nat) (ty : Ty) (v : Val) (h : HasTy Δ ValidUtf8 (Seven w.only7bit) ty v) : ∃ d, layVal w Δ n ty v = .ok d := by
  match v with
  | .bool b => exact ⟨_, rfl⟩
  | .int i =>
    cases ty <;> simp only [HasTy] at h
    exact ⟨_, rfl⟩
  | .str s =>
    cases ty <;> simp only [HasTy] at h
    obtain ⟨l, h1, rfl⟩ := h
    rename_i ah
    obtain ⟨b, h2, -⟩ := writeStrBody_utf8 (!ah || w.only7bit) w.errInvalid l h1
    exact ⟨.str b, by simp only [layVal, h2]; rfl⟩
  | .txt s =>
    cases ty <;> simp only [HasTy] at h
    simp only [layVal]
    exact layTxt_ok h.1 h.2
  | .date x =>
    cases ty <;> simp only [HasTy] at h
    rename_i k
    cases k <;> simp only at h
    obtain ⟨c, e, -⟩ := date_civil h.1 h.2.1
    exact ⟨_, by simp only [layVal, e]; rfl⟩
  | .real x =>
    cases ty <;> simp only [HasTy] at h
    rename_i k
    cases k <;> simp only at h
    obtain ⟨t, ht, -⟩ := toChars_reads h
    exact ⟨_, by simp only [layVal, ht]; rfl⟩
  | .lit x =>
    cases ty <;> simp only [HasTy] at h
    rename_i k
    cases k <;> simp only at h
    rename_i al l
    obtain ⟨d', b, h1, -⟩ := layLit_cases (al := al) h
    exact ⟨d', by simp only [layVal, h1]⟩
  | .none => exact ⟨_, rfl⟩
  | .some v =>
    cases ty <;> simp only [HasTy] at h
    simp only [layVal]
    exact layVal_ok n _ v h.2
  | .arr vs =>
    cases ty <;> simp only [HasTy] at h
    simp only [layVal]
    obtain ⟨es, he⟩ := layElems_ok (n + 1) _ vs h
    exact ⟨_, by rw [he]; rfl⟩
  | .map kvs =>
    cases ty <;> simp only [HasTy] at h
    simp only [layVal]
    obtain ⟨es, he⟩ := layPairs_ok (n + 1) _ kvs h
    exact ⟨_, by rw [he]; rfl⟩
  | .cls vs =>
    cases ty <;> simp only [HasTy] at h
    rename_i i
    simp only [layVal]
    cases hi : Δ i with
    | obj ms ex =>
      simp only [hi] at h ⊢
      obtain ⟨es, he⟩ := layMembers_ok (n + 1) ms vs h
      exact ⟨_, by rw [he]; rfl⟩
    | tup ts ex =>
      simp only [hi] at h ⊢
      obtain ⟨es, he⟩ := layTuple_ok (n + 1) ts vs h
      exact ⟨_, by rw [he]; rfl⟩
    | ord ms ex =>
      simp only [hi] at h ⊢
      obtain ⟨es, he⟩ := layOrdered_ok (n + 1) 0 ms vs h
      exact ⟨_, by rw [he]; rfl⟩
    | var alts => simp only [hi] at h
    | ivar tag sw alts => simp only [hi] at h
  | .alt k v =>
    obtain ⟨ty', h1, -, h2⟩ := hasTy_alt h
    simp only [layVal, h1]
    exact layVal_ok n ty' v h2
theorem layElems_ok (n : Nat) (ty : Ty) (vs : List Val) (h : HasElems Δ ValidUtf8 (Seven w.only7bit) ty vs) :
    ∃ es, layElems w Δ n ty vs = .ok es := by
  match vs with
  | [] => exact ⟨_, rfl⟩
  | v :: vs =>
    rw [HasElems] at h
    obtain ⟨d, h1⟩ := layVal_ok n ty v h.1
    obtain ⟨es, h2⟩ := layElems_ok n ty vs h.2
    exact ⟨_, by simp only [layElems, h1, h2]; rfl⟩
theorem layPairs_ok (n : Nat) (ty : Ty) (kvs : List (Bytes × Val)) (h : HasPairs Δ ValidUtf8 (Seven w.only7bit) ty kvs) :
    ∃ es, layPairs w Δ n ty kvs = .ok es := by
  match kvs with
  | [] => exact ⟨_, rfl⟩
  | (k, v) :: kvs =>
    rw [HasPairs] at h
    obtain ⟨⟨l, hl, rfl⟩, hv, hr⟩ := h
    obtain ⟨b, h0, -⟩ := writeStrBody_utf8 (false || w.only7bit) w.errInvalid l hl
    obtain ⟨d, h1⟩ := layVal_ok n ty v hv
    obtain ⟨es, h2⟩ := layPairs_ok n ty kvs hr
    exact ⟨_, by simp only [layPairs, h0, h1, h2]; rfl⟩
theorem layMembers_ok (n : Nat) (ms : List Member) (vs : List Val) (h : HasList Δ ValidUtf8 (Seven w.only7bit) (ms.map Member.ty) vs) :
    ∃ es, layMembers w Δ n ms vs = .ok es := by
  match vs with
  | [] => exact ⟨_, rfl⟩
  | v :: vs =>
    cases ms with
    | nil => simp [HasList] at h
    | cons m ms =>
      simp only [List.map_cons, HasList] at h
      obtain ⟨d, h1⟩ := layVal_ok n _ v h.1
      obtain ⟨es, h2⟩ := layMembers_ok n ms vs h.2
      simp only [layMembers]
      split
      · exact ⟨_, h2⟩
      · exact ⟨_, by simp only [h1, h2]; rfl⟩
theorem layTuple_ok (n : Nat) (ts : List Ty) (vs : List Val) (h : HasList Δ ValidUtf8 (Seven w.only7bit) ts vs) :
    ∃ es, layTuple w Δ n ts vs = .ok es := by
  match vs with
  | [] => exact ⟨_, rfl⟩
  | v :: vs =>
    cases ts with
    | nil => simp [HasList] at h
    | cons ty ts =>
      rw [HasList] at h
      obtain ⟨d, h1⟩ := layVal_ok n ty v h.1
      obtain ⟨es, h2⟩ := layTuple_ok n ts vs h.2
      exact ⟨_, by simp only [layTuple, h1, h2]; rfl⟩
theorem layOrdered_ok (n idx : Nat) (ms : List (Option Nat × Ty)) (vs : List Val)
    (h : HasList Δ ValidUtf8 (Seven w.only7bit) (ms.map Prod.snd) vs) : ∃ es, layOrdered w Δ n idx ms vs = .ok es := by
  match vs with
  | [] => exact ⟨_, rfl⟩
  | v :: vs =>
    cases ms with
    | nil => simp [HasList] at h
    | cons m ms =>
      simp only [List.map_cons, HasList] at h
      obtain ⟨d, h1⟩ := layVal_ok n _ v h.1
      obtain ⟨es, h2⟩ := layOrdered_ok n (idx + 1) ms vs h.2
      exact ⟨_, by simp only [layOrdered, h1, h2]; rfl⟩
end

end Verif
