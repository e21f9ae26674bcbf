import Verif.Spec.Typed
import Verif.Proof.SkipExact
import Verif.Proof.StrDecode
import Verif.Proof.IntParse
import Verif.Proof.RealIn

/-!
# Typed parsing: layout of containers, arrays, maps, scalars
-/

namespace Verif

open Spec

/-- Bytes that the library takes for whitespace. -/
def IsSp (w : Bytes) : Prop := ∀ c ∈ w, isSpace c = true

theorem IsWs.sp {w : Bytes} (h : IsWs w) : IsSp w := fun c hc => isSpace_of_ws (h c hc)

/-- `r` is `k` without some leading whitespace. -/
def TrimEq (r k : Bytes) : Prop := ∃ w, IsSp w ∧ k = w ++ r

theorem TrimEq.refl (k : Bytes) : TrimEq k k := ⟨[], by simp [IsSp], rfl⟩

theorem TrimEq.trans {a b c : Bytes} (h₁ : TrimEq a b) (h₂ : TrimEq b c) : TrimEq a c := by
  obtain ⟨u, hu, rfl⟩ := h₁
  obtain ⟨v, hv, rfl⟩ := h₂
  refine ⟨v ++ u, ?_, by simp⟩
  intro c hc
  rcases List.mem_append.1 hc with h | h
  · exact hv c h
  · exact hu c h

theorem trimChecked_sp (w bs : Bytes) (h : IsSp w) : trimChecked (w ++ bs) = trimChecked bs := by
  induction w with
  | nil => rfl
  | cons c cs ih =>
    have hc := h c (by simp)
    simp only [List.cons_append, trimChecked, hc, if_true]
    exact ih (fun d hd => h d (by simp [hd]))

theorem trimChecked_trimEq {r k : Bytes} (h : TrimEq r k) : trimChecked r = trimChecked k := by
  obtain ⟨w, hw, rfl⟩ := h
  rw [trimChecked_sp w r hw]

theorem trimEq_trimChecked (k : Bytes) : TrimEq (trimChecked k) k := by
  induction k with
  | nil => exact TrimEq.refl _
  | cons c cs ih =>
    unfold trimChecked
    split
    · rename_i h
      exact ih.trans ⟨[c], by simpa [IsSp] using h, rfl⟩
    · exact TrimEq.refl _

theorem dropWs_trimEq (k : Bytes) : TrimEq (dropWs k) k := by
  induction k with
  | nil => exact TrimEq.refl _
  | cons c cs ih =>
    unfold dropWs
    split
    · rename_i h
      exact ih.trans ⟨[c], by simpa [IsSp] using isSpace_of_ws h, rfl⟩
    · exact TrimEq.refl _

theorem isWs_append {a b : Bytes} (h : IsWs (a ++ b)) : IsWs a ∧ IsWs b :=
  ⟨fun c hc => h c (by simp [hc]), fun c hc => h c (by simp [hc])⟩

theorem TrimEq.after {r k : Bytes} (h : TrimEq r k) (hk : AfterValue k) : AfterValue r := by
  obtain ⟨w, hw, rfl⟩ := h
  obtain ⟨w', t, hw', he, ht⟩ := hk
  rcases List.append_eq_append_iff.1 he with ⟨a, rfl, rfl⟩ | ⟨a, rfl, rfl⟩
  · exact ⟨a, t, (isWs_append hw').2, rfl, ht⟩
  · refine ⟨[], r, by simp [IsWs], rfl, ?_⟩
    cases a with
    | nil => simpa using ht
    | cons x a =>
      have := hw x (by simp)
      rcases ht with h | ⟨y, t', h, hy⟩
      · simp at h
      · simp only [List.cons_append, List.cons.injEq] at h
        obtain ⟨rfl, -⟩ := h
        exfalso
        revert this
        rcases hy with rfl | rfl | rfl <;> decide

theorem trimChecked_te {r k : Bytes} (h : TrimEq r k) : TrimEq (trimChecked r) k :=
  (trimEq_trimChecked r).trans h

theorem sp_neutral {w : Bytes} (h : IsSp w) : ∀ c ∈ w, Neutral c := by
  intro c hc
  have := h c hc
  refine ⟨?_, ?_, ?_, ?_, ?_, ?_, ?_⟩ <;> (rintro rfl; revert this; decide)

/-! ## First character of a value -/

/-- What a value may start with. -/
theorem text_head {tc : Bool} (v : JVal) (hv : v.WFt tc) :
    ∃ c cs, v.text = c :: cs ∧ isSpace c = false ∧ isTokenAfterValue c = false ∧
      (v ≠ .null → c ≠ chN) ∧ (∀ w es, v = .arr w es → c = chLBrack) ∧ (∀ w ms, v = .obj w ms → c = chLBrace) := by
  match v with
  | .null => exact ⟨_, _, rfl, by decide, by decide, by simp, by simp, by simp⟩
  | .tru => exact ⟨_, _, rfl, by decide, by decide, by simp, by simp, by simp⟩
  | .fls => exact ⟨_, _, rfl, by decide, by decide, by simp, by simp, by simp⟩
  | .str b => exact ⟨_, _, rfl, by decide, by decide, by simp, by simp, by simp⟩
  | .arr w .nil => exact ⟨_, _, rfl, by decide, by decide, by simp, by simp, by simp⟩
  | .arr w (.cons ..) => exact ⟨_, _, rfl, by decide, by decide, by simp, by simp, by simp⟩
  | .obj w .nil => exact ⟨_, _, rfl, by decide, by decide, by simp, by simp, by simp⟩
  | .obj w (.cons ..) => exact ⟨_, _, rfl, by decide, by decide, by simp, by simp, by simp⟩
  | .num t =>
    have ht : IsNumber t := by simpa [JVal.WFt] using hv
    obtain ⟨x, t', rfl, hx⟩ : ∃ x t', t = x :: t' ∧ (x = chMinus ∨ IsDig x) := by
      obtain ⟨m, i, f, e, hm, hi, _, _, rfl⟩ := ht
      obtain ⟨y, i', rfl, hy⟩ := isDigits_head (isInt_digits hi)
      rcases hm with rfl | rfl
      · exact ⟨y, _, rfl, Or.inr hy⟩
      · exact ⟨_, _, rfl, Or.inl rfl⟩
    refine ⟨x, t', rfl, ?_⟩
    rw [← isDigit_iff] at hx
    rcases hx with rfl | hx
    · simp; decide
    · refine ⟨?_, ?_, fun _ => ?_, by simp, by simp⟩
      · cases h : isSpace x with
        | false => rfl
        | true =>
          rw [isSpace_iff] at h
          rw [isDigit_iff] at hx
          have := UInt8.le_iff_toNat_le.1 hx.1
          simp at this
          omega
      · unfold isTokenAfterValue
        have : x ≠ chComma ∧ x ≠ chRBrace ∧ x ≠ chRBrack := by
          refine ⟨?_, ?_, ?_⟩ <;> rintro rfl <;> revert hx <;> decide
        simp [this]
      · rintro rfl; revert hx; decide

theorem trimChecked_text {tc : Bool} (v : JVal) (hv : v.WFt tc) (k : Bytes) :
    trimChecked (v.text ++ k) = v.text ++ k := by
  obtain ⟨c, cs, h, hs, -⟩ := text_head v hv
  rw [h, List.cons_append, trimChecked_cons_of_not _ hs]

/-! ## Layout of containers -/

/-- What follows an element of an array: whitespace, the other elements, the closing bracket. -/
def arrAfter (post : Bytes) (tl : JElems) (w k : Bytes) : Bytes := post ++ (tl.text ++ (w ++ chRBrack :: k))

/-- The text from the first of the remaining elements on. -/
def arrRest (w k : Bytes) : JElems → Bytes
  | .nil => chRBrack :: k
  | .cons _ v post tl => v.text ++ arrAfter post tl w k

/-- What follows a member of an object. -/
def objAfter (post : Bytes) (tl : JMems) (w k : Bytes) : Bytes := post ++ (tl.text ++ (w ++ chRBrace :: k))

/-- The text from the first of the remaining members on. -/
def objRest (w k : Bytes) : JMems → Bytes
  | .nil => chRBrace :: k
  | .cons _ n pc qc v post tl =>
    chQuote :: (n ++ chQuote :: (pc ++ chColon :: (qc ++ (v.text ++ objAfter post tl w k))))

theorem moveNextChecked_trimEq {r k : Bytes} (h : TrimEq r k) : moveNextChecked r = moveNextChecked k := by
  unfold moveNextChecked
  rw [trimChecked_trimEq h]

/-- Moving over whitespace and possibly a comma in front of a closing bracket. -/
theorem moveNext_close {tc : Bool} {w w₀ k : Bytes} {x : UInt8} (hx : x = chRBrack ∨ x = chRBrace) (hw₀ : IsWs w₀)
    (hw : IsTail tc w) : moveNextChecked (w₀ ++ (w ++ x :: k)) = x :: k := by
  have hs : isSpace x = false := by rcases hx with rfl | rfl <;> decide
  have hc : x ≠ chComma := by rcases hx with rfl | rfl <;> decide
  unfold moveNextChecked
  rw [trimChecked_ws _ _ hw₀]
  rcases hw with hw | ⟨-, w₁, w₂, h1, h2, rfl⟩
  · rw [trimChecked_ws _ _ hw, trimChecked_cons_of_not _ hs]
    simp [hc]
  · rw [List.append_assoc, trimChecked_ws _ _ h1, List.cons_append, trimChecked_cons_of_not _ (by decide)]
    simp only [if_true]
    rw [trimChecked_ws _ _ h2, trimChecked_cons_of_not _ hs]

theorem moveNext_arr {tc : Bool} {post w k : Bytes} {tl : JElems} (hp : IsWs post) (ht : tl.WFt tc) (hw : IsTail tc w) :
    moveNextChecked (arrAfter post tl w k) = arrRest w k tl := by
  unfold arrAfter
  match tl with
  | .nil => exact moveNext_close (Or.inl rfl) hp hw
  | .cons pre v post' tl' =>
    simp only [JElems.WFt] at ht
    unfold moveNextChecked
    simp only [JElems.text, List.cons_append, List.append_assoc]
    rw [trimChecked_ws _ _ hp, trimChecked_cons_of_not _ (by decide)]
    simp only [if_true]
    rw [trimChecked_ws _ _ ht.1, trimChecked_text v ht.2.1]
    rfl

theorem moveNext_obj {tc : Bool} {post w k : Bytes} {tl : JMems} (hp : IsWs post) (ht : tl.WFt tc) (hw : IsTail tc w) :
    moveNextChecked (objAfter post tl w k) = objRest w k tl := by
  unfold objAfter
  match tl with
  | .nil => exact moveNext_close (Or.inr rfl) hp hw
  | .cons pre n pc qc v post' tl' =>
    simp only [JMems.WFt] at ht
    unfold moveNextChecked
    simp only [JMems.text, List.cons_append, List.append_assoc]
    rw [trimChecked_ws _ _ hp, trimChecked_cons_of_not _ (by decide)]
    simp only [if_true]
    rw [trimChecked_ws _ _ ht.1, trimChecked_cons_of_not _ (by decide)]
    rfl

theorem moveNext_objRest {w k : Bytes} (ms : JMems) : moveNextChecked (objRest w k ms) = objRest w k ms := by
  unfold moveNextChecked
  match ms with
  | .nil => simp only [objRest]; rw [trimChecked_cons_of_not _ (by decide)]; simp
  | .cons .. => simp only [objRest]; rw [trimChecked_cons_of_not _ (by decide)]; simp

theorem isTail_after {tc : Bool} {w w₀ k : Bytes} {x : UInt8} (hx : x = chRBrack ∨ x = chRBrace) (hw₀ : IsWs w₀)
    (hw : IsTail tc w) : AfterValue (w₀ ++ (w ++ x :: k)) := by
  rcases hw with hw | ⟨-, w₁, w₂, h1, h2, rfl⟩
  · refine ⟨w₀ ++ w, x :: k, ?_, by simp, Or.inr ⟨x, k, rfl, ?_⟩⟩
    · intro c hc
      rcases List.mem_append.1 hc with h | h
      · exact hw₀ c h
      · exact hw c h
    · rcases hx with rfl | rfl <;> simp
  · refine ⟨w₀ ++ w₁, 0x2C :: (w₂ ++ x :: k), ?_, by simp, Or.inr ⟨0x2C, _, rfl, Or.inl rfl⟩⟩
    intro c hc
    rcases List.mem_append.1 hc with h | h
    · exact hw₀ c h
    · exact h1 c h

theorem arrAfter_after {tc : Bool} {post w k : Bytes} {tl : JElems} (hp : IsWs post) (hw : IsTail tc w) :
    AfterValue (arrAfter post tl w k) := by
  unfold arrAfter
  match tl with
  | .nil => exact isTail_after (Or.inl rfl) hp hw
  | .cons .. => exact ⟨post, _, hp, rfl, Or.inr ⟨0x2C, _, rfl, Or.inl rfl⟩⟩

theorem objAfter_after {tc : Bool} {post w k : Bytes} {tl : JMems} (hp : IsWs post) (hw : IsTail tc w) :
    AfterValue (objAfter post tl w k) := by
  unfold objAfter
  match tl with
  | .nil => exact isTail_after (Or.inr rfl) hp hw
  | .cons .. => exact ⟨post, _, hp, rfl, Or.inr ⟨0x2C, _, rfl, Or.inl rfl⟩⟩

theorem objAfter_ne (post : Bytes) (tl : JMems) (w k : Bytes) : objAfter post tl w k ≠ [] := by
  simp [objAfter]

theorem arrAfter_ne (post : Bytes) (tl : JElems) (w k : Bytes) : arrAfter post tl w k ≠ [] := by
  simp [arrAfter]

/-- The text of an array value is bracket, whitespace, elements. -/
theorem arr_text (w k : Bytes) (pre : Bytes) (v : JVal) (post : Bytes) (tl : JElems) :
    (JVal.arr w (.cons pre v post tl)).text ++ k = chLBrack :: (pre ++ (v.text ++ arrAfter post tl w k)) := by
  simp [JVal.text, arrAfter]

theorem obj_text (w k pre n pc qc : Bytes) (v : JVal) (post : Bytes) (tl : JMems) :
    (JVal.obj w (.cons pre n pc qc v post tl)).text ++ k
      = chLBrace :: (pre ++ objRest w k (.cons pre n pc qc v post tl)) := by
  simp [JVal.text, objAfter, objRest]

/-! ## Meaning of parsers -/

/-- There is something other than whitespace. -/
def Nonsp (k : Bytes) : Prop := trimChecked k ≠ []

/-- `k` may follow a value; a real that looks like an integer is not the last thing in the buffer. -/
def Follows (d : JVal) (v : Val) (k : Bytes) : Prop := AfterValue k ∧ (k = [] → EndsWell d v)

/-- `p` reads `d` as `v`, whatever follows; in unchecked mode something other than whitespace follows. -/
def SemU (ck : Bool) (p : Bytes → Res (Val × Bytes)) (d : JVal) (v : Val) : Prop :=
  ∀ k, (d.ends v = false → Follows d v k) → (ck = false → Nonsp k) → ∃ r, p (d.text ++ k) = .ok (v, r) ∧ TrimEq r k

theorem arrAfter_follows {tc : Bool} {post w k : Bytes} {tl : JElems} (d : JVal) (v : Val) (hp : IsWs post)
    (hw : IsTail tc w) : Follows d v (arrAfter post tl w k) := ⟨arrAfter_after hp hw, fun h => absurd h (arrAfter_ne post tl w k)⟩

theorem objAfter_follows {tc : Bool} {post w k : Bytes} {tl : JMems} (d : JVal) (v : Val) (hp : IsWs post)
    (hw : IsTail tc w) : Follows d v (objAfter post tl w k) := ⟨objAfter_after hp hw, fun h => absurd h (objAfter_ne post tl w k)⟩

/-- The positions stored for a number are those of its decimal point and its exponent. -/
def NumPos (d : JVal) (dec exp : Option Nat) : Prop :=
  ∀ neg i f x, d = .num ((if neg then [chMinus] else []) ++ (i ++ (f ++ x))) → IsInt i → IsFrac f → IsExp x →
    dec = (numRange neg i f x).dec ∧ exp = (numRange neg i f x).exp

/-- A range and the text after it, as stored for a skipped member with value `d`. -/
def Stored (d : JVal) (r : Range) (after : Bytes) : Prop :=
  d ≠ .null ∧ r.text = rangeText false d ∧ r.null = false ∧
  (∀ b, d = .str b → r.counter = firstEsc b ∧ ∃ c, after = chQuote :: c) ∧ r.quoted = headIs (· == chQuote) d.text ∧
  ((∀ b, d ≠ .str b) → r.counter = rangeCounter d) ∧ Nonsp after ∧ NumPos d r.dec r.exp ∧ (∀ x, d = .num x → AfterValue after)

/-- `p` reads `d` as `v` from a stored range. -/
def SemK (p : Range → Bytes → Res Val) (d : JVal) (v : Val) : Prop := ∀ r after, Stored d r after → p r after = .ok v

/-- The elements are read as the values. -/
def ElemsSem (ck : Bool) (p : Bytes → Res (Val × Bytes)) : JElems → List Val → Prop
  | .nil, [] => True
  | .cons _ d _ tl, v :: vs => SemU ck p d v ∧ ElemsSem ck p tl vs
  | _, _ => False

/-- The members are read as the pairs. -/
def PairsSem (ck : Bool) (p : Bytes → Res (Val × Bytes)) : JMems → List (Bytes × Val) → Prop
  | .nil, [] => True
  | .cons _ n _ _ d _ tl, (k, v) :: kvs => Unesc n k ∧ n.length < 2 ^ 63 ∧ SemU ck p d v ∧ PairsSem ck p tl kvs
  | _, _ => False

theorem trim_ck {cfg : Cfg} (h : cfg.checked = true) (bs : Bytes) : trim cfg bs = .ok (trimChecked bs) := by
  simp [trim, h]

theorem moveNext_ck {cfg : Cfg} (h : cfg.checked = true) (bs : Bytes) :
    moveNext cfg bs = .ok (moveNextChecked bs) := by
  simp [moveNext, h]

theorem assertWeak_tt (c : Bool) (e : Err) : assertWeak c true e = .ok () := by cases c <;> rfl

theorem trimUnchecked_of {bs b : Bytes} (h : trimChecked bs = b) (hb : b ≠ []) : trimUnchecked bs = .ok b := by
  induction bs with
  | nil => exact absurd h.symm hb
  | cons c cs ih =>
    unfold trimChecked at h
    unfold trimUnchecked
    split <;> rename_i hc
    · rw [if_pos hc] at h; exact ih h
    · rw [if_neg hc] at h; rw [h]

theorem trim_of {cfg : Cfg} {bs b : Bytes} (h : trimChecked bs = b) (hb : b ≠ []) : trim cfg bs = .ok b := by
  unfold trim
  split
  · rw [h]
  · exact trimUnchecked_of h hb

theorem moveNext_of {cfg : Cfg} {bs b : Bytes} (h : moveNextChecked bs = b) (hb : b ≠ []) : moveNext cfg bs = .ok b := by
  unfold moveNext
  split
  · rw [h]
  · unfold moveNextChecked at h
    unfold moveNextUnchecked
    cases ht : trimChecked bs with
    | nil => rw [ht] at h; exact absurd h.symm hb
    | cons c cs =>
      rw [ht] at h
      simp only [trimUnchecked_of ht (by simp), Res.ok_bind, deref_cons]
      split <;> rename_i hc
      · simp only [if_pos hc] at h; exact trimUnchecked_of h hb
      · simp only [if_neg hc] at h; rw [h]

theorem objRest_ne (w k : Bytes) (rest : JMems) : objRest w k rest ≠ [] := by cases rest <;> simp [objRest]

theorem arrRest_ne {tc : Bool} (w k : Bytes) {es : JElems} (h : es.WFt tc) : arrRest w k es ≠ [] := by
  cases es with
  | nil => simp [arrRest]
  | cons pre d post tl =>
    simp only [JElems.WFt] at h
    obtain ⟨c, cs, hc, -⟩ := text_head d h.2.1
    simp [arrRest, hc]

theorem trimChecked_ne {c : UInt8} (hc : isSpace c = false) (a b : Bytes) : Nonsp (a ++ c :: b) := by
  unfold Nonsp
  induction a with
  | nil => rw [List.nil_append, trimChecked_cons_of_not _ hc]; simp
  | cons x a ih =>
    rw [List.cons_append]
    unfold trimChecked
    split
    · exact ih
    · simp

theorem objAfter_nonsp (post : Bytes) (tl : JMems) (w k : Bytes) : Nonsp (objAfter post tl w k) := by
  unfold objAfter
  rw [← List.append_assoc, ← List.append_assoc]
  exact trimChecked_ne (by decide) _ _

theorem arrAfter_nonsp (post : Bytes) (tl : JElems) (w k : Bytes) : Nonsp (arrAfter post tl w k) := by
  unfold arrAfter
  rw [← List.append_assoc, ← List.append_assoc]
  exact trimChecked_ne (by decide) _ _

theorem trimChecked_suffix_length (bs : Bytes) : (trimChecked bs).length ≤ bs.length :=
  (trimChecked_suffix bs).length_le

theorem arrRest_cons_head {tc : Bool} {w k : Bytes} {pre : Bytes} {d : JVal} {post : Bytes} {tl : JElems}
    (hd : d.WFt tc) : ∃ c cs, arrRest w k (.cons pre d post tl) = c :: cs ∧ c ≠ chRBrack := by
  obtain ⟨c, cs, h, -, h2, -⟩ := text_head d hd
  refine ⟨c, cs ++ arrAfter post tl w k, by simp [arrRest, h], ?_⟩
  rintro rfl
  simp [isTokenAfterValue] at h2

/-- The length of what is left. -/
theorem arrRest_length (w k : Bytes) (post : Bytes) (tl : JElems) :
    (arrRest w k tl).length ≤ (arrAfter post tl w k).length := by
  match tl with
  | .nil => simp [arrRest, arrAfter, JElems.text]; omega
  | .cons .. => simp [arrRest, arrAfter, JElems.text]; omega

theorem objRest_length (w k : Bytes) (post : Bytes) (tl : JMems) :
    (objRest w k tl).length ≤ (objAfter post tl w k).length := by
  match tl with
  | .nil => simp [objRest, objAfter, JMems.text]; omega
  | .cons .. => simp [objRest, objAfter, JMems.text]; omega

/-- After an element: whitespace, then `,` or `]`. -/
theorem arrAfter_trim {tc : Bool} {post w k : Bytes} {tl : JElems} (hp : IsWs post) (hw : IsTail tc w) :
    ∃ c cs, trimChecked (arrAfter post tl w k) = c :: cs ∧ (c = chComma ∨ c = chRBrack) := by
  unfold arrAfter
  rw [trimChecked_ws _ _ hp]
  match tl with
  | .nil =>
    simp only [JElems.text, List.nil_append]
    rcases hw with hw | ⟨-, w₁, w₂, h1, h2, rfl⟩
    · rw [trimChecked_ws _ _ hw, trimChecked_cons_of_not _ (by decide)]
      exact ⟨_, _, rfl, Or.inr rfl⟩
    · rw [List.append_assoc, trimChecked_ws _ _ h1, List.cons_append, trimChecked_cons_of_not _ (by decide)]
      exact ⟨_, _, rfl, Or.inl rfl⟩
  | .cons .. =>
    simp only [JElems.text, List.cons_append]
    rw [trimChecked_cons_of_not _ (by decide)]
    exact ⟨_, _, rfl, Or.inl rfl⟩

theorem moveNextChecked_trim (bs : Bytes) : moveNextChecked (trimChecked bs) = moveNextChecked bs := by
  unfold moveNextChecked
  rw [trimChecked_idem]

theorem text_length_pos {tc : Bool} {d : JVal} (hd : d.WFt tc) : 0 < d.text.length := by
  obtain ⟨c, cs, h, -⟩ := text_head d hd
  rw [h]; simp

/-- The element loop of an array. -/
theorem arrLoop_sem {cfg : Cfg} {ck : Bool} {p : Bytes → Res (Val × Bytes)} {tc : Bool} {w k : Bytes}
    (hw : IsTail tc w) :
    ∀ (tl : JElems) (pre : Bytes) (d : JVal) (post : Bytes) (v : Val) (vs : List Val),
      (JElems.cons pre d post tl).WFt tc → ElemsSem ck p (.cons pre d post tl) (v :: vs) →
      ∃ r, arrLoop cfg p (d.text ++ arrAfter post tl w k) = .ok (v :: vs, r) ∧ TrimEq r k
  | tl, pre, d, post, v, vs, hwf, hs => by
    obtain ⟨-, hd, hpost, htl⟩ := (by simpa only [JElems.WFt] using hwf : IsWs pre ∧ d.WFt tc ∧ IsWs post ∧ tl.WFt tc)
    obtain ⟨hs1, hs2⟩ := (by simpa only [ElemsSem] using hs : SemU ck p d v ∧ ElemsSem ck p tl vs)
    obtain ⟨r, hr, htr⟩ := hs1 _ (fun _ => arrAfter_follows (tl := tl) (k := k) _ _ hpost hw) (fun _ => arrAfter_nonsp _ _ _ _)
    obtain ⟨c, cs, hc, hcc⟩ := arrAfter_trim (tl := tl) (k := k) hpost hw
    have hne : (d.text ++ arrAfter post tl w k).isEmpty = false := by
      obtain ⟨c, cs, h, -⟩ := text_head d hd
      rw [h]; rfl
    have htrim : trimChecked r = c :: cs := by rw [trimChecked_trimEq htr, hc]
    have hmv : moveNextChecked (c :: cs) = arrRest w k tl := by
      rw [← hc, moveNextChecked_trim, moveNext_arr hpost htl hw]
    have hh : headIs (fun c => c == chComma || c == chRBrack) (c :: cs) = true := by
      rcases hcc with rfl | rfl <;> rfl
    unfold arrLoop
    simp only [assertWeak_tt, hne, Bool.not_false, Res.ok_bind, hr, trim_of htrim (by simp), hh,
      moveNext_of hmv (arrRest_ne w k htl)]
    match tl, vs, hs2 with
    | .nil, [], _ =>
      simp only [arrRest, List.isEmpty_cons, Bool.not_false, assertWeak_tt, Res.ok_bind, deref_cons, if_true,
        List.tail_cons]
      exact ⟨_, rfl, trimChecked_te (TrimEq.refl k)⟩
    | .cons pre' d' post' tl', v' :: vs', hs2 =>
      have hd' : d'.WFt tc := by simp only [JElems.WFt] at htl; exact htl.2.1
      obtain ⟨x, xs, hx, hxn⟩ := arrRest_cons_head (w := w) (k := k) (pre := pre') (post := post') (tl := tl') hd'
      have hl := arrRest_length w k post (.cons pre' d' post' tl')
      have hp := text_length_pos hd
      obtain ⟨r', hr', ht'⟩ := arrLoop_sem hw (k := k) tl' pre' d' post' v' vs' htl hs2
      have hlt : (arrRest w k (.cons pre' d' post' tl')).length
          < (d.text ++ arrAfter post (.cons pre' d' post' tl') w k).length := by
        rw [List.length_append]; omega
      have hde : deref (arrRest w k (.cons pre' d' post' tl')) = .ok x := by rw [hx]; rfl
      have hem : (arrRest w k (.cons pre' d' post' tl')).isEmpty = false := by rw [hx]; rfl
      simp only [hem, Bool.not_false, assertWeak_tt, Res.ok_bind, hde, if_neg hxn]
      rw [dif_pos hlt]
      have : arrLoop cfg p (arrRest w k (.cons pre' d' post' tl')) = .ok (v' :: vs', r') := hr'
      rw [this]
      exact ⟨r', rfl, ht'⟩
    | .nil, _ :: _, h => simp [ElemsSem] at h
    | .cons .., [], h => simp [ElemsSem] at h

/-- Arrays. -/
theorem parseArr_sem {cfg : Cfg} {ck : Bool} {p : Bytes → Res (Val × Bytes)} {tc : Bool} {w : Bytes}
    {es : JElems} {vs : List Val} (hwf : (JVal.arr w es).WFt tc) (he : es = .nil → IsWs w)
    (hs : ElemsSem ck p es vs) :
    SemU ck (parseArr cfg p) (.arr w es) (.arr vs) := by
  intro k hk _
  simp only [JVal.WFt] at hwf
  unfold parseArr
  match es, vs, hs with
  | .nil, [], _ =>
    have hw := he rfl
    have h1 : trimChecked ((JVal.arr w .nil).text ++ k) = chLBrack :: (w ++ chRBrack :: k) := by
      simp only [JVal.text, List.cons_append, List.append_assoc, List.nil_append]
      exact trimChecked_cons_of_not _ (by decide)
    have h2 : trimUncheckedEnd cfg (w ++ chRBrack :: k) = .ok (chRBrack :: k) := trimUncheckedEnd_of_ok <| by
      rw [trimUnchecked_ws _ _ hw, trimUnchecked_cons_of_not _ (by decide)]
    simp only [trim_of h1 (by simp), Res.ok_bind, assertWeak_tt, headIs, beq_self_eq_true,
      List.tail_cons, h2, derefEnd_cons, if_true]
    exact ⟨_, rfl, trimChecked_te (TrimEq.refl k)⟩
  | .cons pre d post tl, v :: vs, hs =>
    have htl := hwf.2
    simp only [JElems.WFt] at htl
    rw [arr_text]
    have h1 : trimChecked (chLBrack :: (pre ++ (d.text ++ arrAfter post tl w k)))
        = chLBrack :: (pre ++ (d.text ++ arrAfter post tl w k)) := trimChecked_cons_of_not _ (by decide)
    obtain ⟨c, cs, h, hsp, htok, -⟩ := text_head d htl.2.1
    have h2 : trimUncheckedEnd cfg (pre ++ (d.text ++ arrAfter post tl w k)) = .ok (d.text ++ arrAfter post tl w k) := trimUncheckedEnd_of_ok <| by
      rw [trimUnchecked_ws _ _ htl.1, h, List.cons_append, trimUnchecked_cons_of_not _ hsp]
    have h3 : derefEnd cfg (d.text ++ arrAfter post tl w k) = .ok c := by rw [h]; rfl
    have h4 : c ≠ chRBrack := by rintro rfl; simp [isTokenAfterValue] at htok
    obtain ⟨r, hr, ht⟩ := arrLoop_sem (cfg := cfg) hwf.1 (k := k) tl pre d post v vs hwf.2 hs
    simp only [trim_of h1 (by simp), Res.ok_bind, assertWeak_tt, headIs, beq_self_eq_true,
      List.tail_cons, h2, h3, if_neg h4, hr]
    exact ⟨r, rfl, ht⟩
  | .nil, _ :: _, h => simp [ElemsSem] at h
  | .cons .., [], h => simp [ElemsSem] at h

/-! ## Maps -/

/-- After a name: whitespace, colon, whitespace. -/
theorem trimEndOfName_ck {cfg : Cfg} {pc qc k : Bytes} (hk : Nonsp k) (hpc : IsWs pc) (hqc : IsWs qc) :
    trimEndOfName cfg (pc ++ chColon :: (qc ++ k)) = .ok (trimChecked k) := by
  have h1 : trimChecked (pc ++ chColon :: (qc ++ k)) = chColon :: (qc ++ k) := by
    rw [trimChecked_ws _ _ hpc, trimChecked_cons_of_not _ (by decide)]
  unfold trimEndOfName
  simp only [trim_of h1 (by simp), Res.ok_bind, whenChecked, headIs, beq_self_eq_true, ensure_true,
    List.isEmpty_cons, Bool.not_false, List.tail_cons, ite_self]
  exact trim_of (trimChecked_ws _ _ hqc) hk

theorem text_nonsp {tc : Bool} {d : JVal} (hd : d.WFt tc) (k : Bytes) : Nonsp (d.text ++ k) := by
  unfold Nonsp
  rw [trimChecked_text d hd]
  obtain ⟨c, cs, h, -⟩ := text_head d hd
  simp [h]

theorem mapLoop_sem {cfg : Cfg} {ck : Bool} {p : Bytes → Res (Val × Bytes)} {tc : Bool} {w k : Bytes}
    (hw : IsTail tc w) :
    ∀ (tl : JMems) (pre n pc qc : Bytes) (d : JVal) (post : Bytes) (kv : Bytes × Val) (kvs : List (Bytes × Val)),
      (JMems.cons pre n pc qc d post tl).WFt tc → PairsSem ck p (.cons pre n pc qc d post tl) (kv :: kvs) →
      ∃ r, mapLoop cfg p (objRest w k (.cons pre n pc qc d post tl)) = .ok (kv :: kvs, r) ∧ TrimEq r k
  | tl, pre, n, pc, qc, d, post, (ky, v), kvs, hwf, hs => by
    obtain ⟨-, hn, hpc, hqc, hd, hpost, htl⟩ := (by simpa only [JMems.WFt] using hwf :
      IsWs pre ∧ IsStrBody n ∧ IsWs pc ∧ IsWs qc ∧ d.WFt tc ∧ IsWs post ∧ tl.WFt tc)
    obtain ⟨hs0, hsl, hs1, hs2⟩ := (by simpa only [PairsSem] using hs :
      Unesc n ky ∧ n.length < 2 ^ 63 ∧ SemU ck p d v ∧ PairsSem ck p tl kvs)
    obtain ⟨r, hr, htr⟩ := hs1 _ (fun _ => objAfter_follows (tl := tl) (k := k) _ _ hpost hw) (fun _ => objAfter_nonsp _ _ _ _)
    have hstr := parseStr_body cfg true hs0 hsl (pc ++ chColon :: (qc ++ (d.text ++ objAfter post tl w k)))
      (Or.inl rfl)
    have hmv : moveNextChecked r = objRest w k tl := by
      rw [moveNextChecked_trimEq htr, moveNext_obj hpost htl hw]
    have hnm := trimEndOfName_ck (cfg := cfg) (text_nonsp hd (objAfter post tl w k)) hpc hqc
    rw [trimChecked_text d hd] at hnm
    have hmv' : moveNext cfg r = .ok (objRest w k tl) := moveNext_of hmv (objRest_ne _ _ _)
    have hobj : objRest w k (.cons pre n pc qc d post tl)
        = chQuote :: (n ++ chQuote :: (pc ++ chColon :: (qc ++ (d.text ++ objAfter post tl w k)))) := rfl
    rw [hobj]
    unfold mapLoop
    simp only [assertWeak_tt, List.isEmpty_cons, Bool.not_false, Res.ok_bind, hstr, hnm, hr, hmv']
    match tl, kvs, hs2 with
    | .nil, [], _ =>
      simp only [objRest, List.isEmpty_cons, Bool.not_false, assertWeak_tt, Res.ok_bind, deref_cons, if_true,
        List.tail_cons]
      exact ⟨_, rfl, trimChecked_te (TrimEq.refl k)⟩
    | .cons pre' n' pc' qc' d' post' tl', kv' :: kvs', hs2 =>
      have hl := objRest_length w k post (.cons pre' n' pc' qc' d' post' tl')
      obtain ⟨r', hr', ht'⟩ := mapLoop_sem hw (k := k) tl' pre' n' pc' qc' d' post' kv' kvs' htl hs2
      have hlt : (objRest w k (.cons pre' n' pc' qc' d' post' tl')).length
          < (chQuote :: (n ++ chQuote :: (pc ++ chColon :: (qc ++ (d.text ++
              objAfter post (.cons pre' n' pc' qc' d' post' tl') w k))))).length := by
        simp only [List.length_append, List.length_cons]; omega
      have hde : deref (objRest w k (.cons pre' n' pc' qc' d' post' tl')) = .ok chQuote := rfl
      have hem : (objRest w k (.cons pre' n' pc' qc' d' post' tl')).isEmpty = false := rfl
      simp only [hem, hde, Bool.not_false, assertWeak_tt, Res.ok_bind]
      rw [if_neg (by decide), dif_pos hlt, hr']
      exact ⟨r', rfl, ht'⟩
    | .nil, _ :: _, h => simp [PairsSem] at h
    | .cons .., [], h => simp [PairsSem] at h

/-- Maps. -/
theorem parseMap_sem {cfg : Cfg} {ck : Bool} {p : Bytes → Res (Val × Bytes)} {tc : Bool} {w : Bytes}
    {ms : JMems} {kvs : List (Bytes × Val)} (hwf : (JVal.obj w ms).WFt tc) (he : ms = .nil → IsWs w)
    (hs : PairsSem ck p ms kvs) : SemU ck (parseMap cfg p) (.obj w ms) (.map kvs) := by
  intro k hk _
  simp only [JVal.WFt] at hwf
  unfold parseMap
  match ms, kvs, hs with
  | .nil, [], _ =>
    have hw := he rfl
    have h1 : (JVal.obj w .nil).text ++ k = chLBrace :: (w ++ chRBrace :: k) := by simp [JVal.text]
    have h2 : trimChecked (w ++ chRBrace :: k) = chRBrace :: k := by
      rw [trimChecked_ws _ _ hw, trimChecked_cons_of_not _ (by decide)]
    simp only [h1, assertWeak_tt, headIs, beq_self_eq_true, ensure_true, Res.ok_bind, trim_of h2 (by simp),
      List.tail_cons, deref_cons, if_true, List.isEmpty_cons, Bool.not_false]
    exact ⟨_, rfl, trimChecked_te (TrimEq.refl k)⟩
  | .cons pre n pc qc d post tl, kv :: kvs, hs =>
    have htl := hwf.2
    simp only [JMems.WFt] at htl
    have h2 : trimChecked (pre ++ objRest w k (.cons pre n pc qc d post tl))
        = objRest w k (.cons pre n pc qc d post tl) := by
      rw [trimChecked_ws _ _ htl.1]
      exact trimChecked_cons_of_not _ (by decide)
    have hde : deref (objRest w k (.cons pre n pc qc d post tl)) = .ok chQuote := rfl
    have hem : (objRest w k (.cons pre n pc qc d post tl)).isEmpty = false := rfl
    obtain ⟨r, hr, ht⟩ := mapLoop_sem (cfg := cfg) hwf.1 (k := k) tl pre n pc qc d post kv kvs hwf.2 hs
    simp only [obj_text, assertWeak_tt, headIs, beq_self_eq_true, ensure_true, Res.ok_bind, trim_of h2 (objRest_ne _ _ _),
      List.tail_cons, hde, hem, Bool.not_false]
    rw [if_neg (by decide), hr]
    exact ⟨r, rfl, ht⟩
  | .nil, _ :: _, h => simp [PairsSem] at h
  | .cons .., [], h => simp [PairsSem] at h

end Verif
