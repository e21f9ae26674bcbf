import Verif.Proof.KeyMap
import Verif.Props.Literal

/-!
# Property C97: maps with keys that are not strings

`std::map<int, T>` and the like: the names of the members are the keys.
-/

namespace Verif

open Spec

/-! ## Reading -/

/-- **C97**, reading, partial: an object whose names are the texts of keys is read as the pairs of these keys and the values, in document
order, whatever their number and whatever whitespace stands around them.  Missing: names that are written with escapes, see
`C97_false_for_escapes`. -/
theorem C97_reads_partial (t : TCfg) (hck : t.cfg.checked = true) (Δ : Env) (henv : EnvOk Δ) (kt ty : Ty) (hkt : KeyTy kt) (w : Bytes)
    (ms : JMems) (kvs : List (Val × Val)) (hr : ReadsKeyed Δ (Usable t) t.exactAll kt ty ms kvs) (he : ms = .nil → IsWs w)
    (hw : (JVal.obj w ms).WF) (hf : (JVal.obj w ms).Fits) (k : Bytes) (hk : t.verifyEnd = true → LibSpace (dropNul k)) :
    ∃ f0, ∀ f, f0 ≤ f → fromJsonKeyMap t Δ f kt ty ((JVal.obj w ms).text ++ k) = .ok kvs := by
  have hd := dok_of hw hf
  obtain ⟨f0, hf0⟩ := fromJsonKeyMap_reads hck henv usable_nameOk rfl hkt hr he hd hd.mems k
  refine ⟨f0, fun f hfu => ?_⟩
  rw [hf0 f hfu, if_neg]
  rintro ⟨h1, h2⟩
  exact h2 ((trimChecked_nil_iff _).2 (hk h1))

/-- `{ "7" : 7,"-12":7}` as a map from `int` to `int`. -/
def exKeyMs : JMems := .cons [0x20] [0x37] [0x20] [0x20] (.num [0x37]) [] (.cons [] [0x2D, 0x31, 0x32] [] [] (.num [0x37]) [] .nil)

def exKeyTy : Ty := .txt (.quoted true (.int exI32 false))

theorem exKey_minus : LitText (.int exI32 false) [0x2D, 0x31, 0x32] (.int (-12)) := by
  refine .int (by decide) (by decide) ?_
  unfold IsNumeral
  rw [if_pos (by decide)]
  refine ⟨[0x31, 0x32], rfl, Or.inr ⟨⟨by simp, ?_⟩, by simp⟩, by decide⟩
  intro c hc
  simp only [List.mem_cons, List.not_mem_nil, or_false] at hc
  rcases hc with rfl | rfl <;> (unfold IsDig; decide)

theorem exKey_reads {nm : List Bytes → Bytes → Prop} {ea : Bool} {Δ : Env} :
    ReadsKeyed Δ nm ea exKeyTy (.int exI32 false) exKeyMs [(.lit (.int 7), .int 7), (.lit (.int (-12)), .int 7)] :=
  .cons (.txt (.quoted (exQ_seven _ _ (by decide) (by decide)))) (.int (by decide) (by decide) num7_numeral)
    (.cons (.txt (.quoted exKey_minus)) (.int (by decide) (by decide) num7_numeral) .nil)

theorem exKey_wf : (JVal.obj [0x20] exKeyMs).WF :=
  ⟨Or.inl ws_sp, ws_sp, name1_wf (by decide) (by decide) (by decide), ws_sp, ws_sp, num1_wf (by unfold IsDig; decide) (by decide), ws_nil,
    ws_nil, litText_body exKey_minus, ws_nil, ws_nil, num1_wf (by unfold IsDig; decide) (by decide), ws_nil, trivial⟩

/-- Non-vacuity, with a newline behind the document and the end verified. -/
example : ∃ f0, ∀ f, f0 ≤ f → fromJsonKeyMap { verifyEnd := true } exEnv f exKeyTy (.int exI32 false) ((JVal.obj [0x20] exKeyMs).text ++ [0x0A])
    = .ok [(.lit (.int 7), .int 7), (.lit (.int (-12)), .int 7)] :=
  C97_reads_partial { verifyEnd := true } rfl exEnv exEnv_ok exKeyTy (.int exI32 false) .quoted [0x20] exKeyMs _ exKey_reads (by simp [exKeyMs])
    exKey_wf ⟨by decide, by decide⟩ [0x0A] (fun _ => by unfold LibSpace; decide)

/-! ## Writing -/

/-- **C97**, round trip: what `to_json` writes for a map with keys of a type that is stored as a string is read back as the same pairs,
in the same order.  The text is an object whose names are the texts of the keys. -/
theorem C97_round_trip (w : WCfg) (t : TCfg) (hck : t.cfg.checked = true) (Δ : Env) (hΔ : Writable Δ)
    (hp : PlainNames t Δ) (hx : w.tc = true → NoExactOrdered t Δ) (kt ty : Ty) (hkt : KeyTy kt) (kvs : List (Val × Val))
    (hv : HasKeyed Δ ValidUtf8 (Seven w.only7bit) kt ty kvs) (hdep : ∀ p ∈ kvs, p.2.depth + 1 < 2 ^ 32) :
    ∃ out, toJsonKeyMap w Δ kt ty kvs = .ok out ∧
      (∃ g ms, out = (JVal.obj g ms).text ∧ ReadsKeyed Δ (Usable t) t.exactAll kt ty ms kvs) ∧
      (out.length < 2 ^ 63 → ∃ f0, ∀ f, f0 ≤ f → fromJsonKeyMap t Δ f kt ty out = .ok kvs) := by
  obtain ⟨g, ms, h1, h2, h3, h4, h5⟩ := toJsonKeyMap_lay hΔ (readable_of hp hx) hkt hv
  refine ⟨_, h1, ⟨g, ms, rfl, h2⟩, fun hl => ?_⟩
  have hd : DOk w.tc (.obj g ms) := ⟨h3, by
    have := h5 (2 ^ 32 - 2) (fun p hp => by have := hdep p hp; omega)
    omega, hl⟩
  obtain ⟨f0, hf0⟩ := fromJsonKeyMap_reads hck hΔ.nodup usable_nameOk rfl hkt h2 h4 hd hd.mems []
  refine ⟨f0, fun f hf => ?_⟩
  have := hf0 f hf
  simpa [dropNul, trimChecked] using this

/-- Non-vacuity: `{ 7: S{ -12, {}, { S{ 0, {}, {} } } } }`, with trailing commas. -/
example : ∃ out, toJsonKeyMap { pretty := true, tc := true } exEnv exKeyTy (.ref 0) [(.lit (.int 7), exVal)] = .ok out ∧
    (∃ g ms, out = (JVal.obj g ms).text ∧ ReadsKeyed exEnv (Usable {}) false exKeyTy (.ref 0) ms [(.lit (.int 7), exVal)]) ∧
    (out.length < 2 ^ 63 → ∃ f0, ∀ f, f0 ≤ f → fromJsonKeyMap {} exEnv f exKeyTy (.ref 0) out = .ok [(.lit (.int 7), exVal)]) :=
  C97_round_trip _ {} rfl exEnv exEnv_writable (exEnv_plain _) (fun _ => by intro i ms ex h; cases h) _ _ .quoted _
    (by
      intro p hp
      simp only [List.mem_cons, List.not_mem_nil, or_false] at hp
      subst hp
      refine ⟨?_, exVal_hasTy⟩
      simp only [HasTy]
      exact ⟨by decide, by decide⟩)
    (by simp; decide)

/-- What is written for `{ 7: 7 }`: `{"7":7}`. -/
example : toJsonKeyMap {} exEnv exKeyTy (.int exI32 false) [(.lit (.int 7), .int 7)] = .ok asc! "{\"7\":7}" := by decide +kernel

/-! ## Rejecting -/

/-- **C97**, what is accepted, partial: from a document only an object is read, a pair for each member in document order.  The name of a
boolean key is `true` or `false`, that of an integer key is made of digits with perhaps a minus sign in front; if it is the text of a
key, that is the key of the pair; and the values fit their type.  Missing: the minus sign alone and integers out of range, see
`C97_false_for_minus` and `C97_false_out_of_range`; what names are accepted for dates and custom types. -/
theorem C97_accepted_partial (t : TCfg) (hck : t.cfg.checked = true) (Δ : Env) (henv : EnvOk Δ) (hpl : PlainShapes Δ t.exactAll) (f : Nat)
    (kt ty : Ty) (hkt : KeyTy kt) (hs : ty.strict = true) (d : JVal) (hw : d.WF) (hf : d.Fits) (k : Bytes) (kvs : List (Val × Val))
    (h : fromJsonKeyMap t Δ f kt ty (d.text ++ k) = .ok kvs) :
    ∃ w ms, d = .obj w ms ∧ List.Forall₂ (fun m kv => (∀ l, kt = .txt (.quoted true l) → KeyText l m.1) ∧
      (∀ x, Reads Δ (Usable t) t.exactAll kt (.str m.1) x → kv.1 = x) ∧ Shaped Δ (Usable t) t.exactAll ty m.2) ms.toList kvs := by
  have hd := dok_of hw hf
  unfold fromJsonKeyMap at h
  simp only [Res.bind_eq_ok] at h
  obtain ⟨_, -, ⟨x, r⟩, hx, h⟩ := h
  have he : (if (d.text ++ k).getLast? = some 0 then (d.text ++ k).dropLast else d.text ++ k) = d.text ++ dropNul k :=
    dropNul_append (tc := false) hw k
  rw [he] at hx
  obtain ⟨-, w, ms, rfl, hall⟩ := parseKeyMap_sound hck hd
    (fun n hn hl => key_sound hck henv usable_nameOk rfl hkt f hn hl)
    (fun x hx => (parse_sound hck henv.nodup hpl usable_nameOk rfl f ty x hs hx).1) hx
  have hv : x = kvs := by
    split at h
    · simp only [Res.bind_eq_ok] at h
      obtain ⟨_, -, _, -, h⟩ := h
      cases h; rfl
    · cases h; rfl
  subst hv
  refine ⟨w, ms, rfl, hall.imp ?_⟩
  rintro m kv ⟨⟨h1, h2⟩, h3⟩
  exact ⟨h1, h2, h3⟩

/-- Non-vacuity: `{"a":7}` is no map with integers for keys, … -/
example (f : Nat) (kvs : List (Val × Val)) : fromJsonKeyMap {} (fun _ => .obj [] false) f exKeyTy (.int exI32 false)
    ((JVal.obj [] (.cons [] [0x61] [] [] (.num [0x37]) [] .nil)).text ++ []) ≠ .ok kvs := by
  intro h
  obtain ⟨w, ms, h1, h2⟩ := C97_accepted_partial {} rfl (fun _ => .obj [] false)
    (.classes (fun i ms ex h => by cases h; simp) (fun i alts h => by cases h)) ⟨nofun, nofun, fun _ => rfl⟩ f exKeyTy
    (.int exI32 false) .quoted rfl (.obj [] (.cons [] [0x61] [] [] (.num [0x37]) [] .nil)) ⟨Or.inl ws_nil, ws_nil, name1_wf (by decide) (by decide) (by decide), ws_nil, ws_nil,
      num1_wf (by unfold IsDig; decide) (by decide), ws_nil, trivial⟩ ⟨by decide, by decide⟩ [] kvs h
  cases h1
  cases h2 with
  | cons h2 _ =>
    obtain ⟨ds, hds, h3⟩ := h2.1 _ rfl
    rcases h3 with ⟨rfl, -⟩ | ⟨-, h3⟩
    · have := hds 0x61 (by simp)
      revert this; unfold IsDig; decide
    · cases h3

/-- … and there is a document that is accepted. -/
example : fromJsonKeyMap {} (fun _ => .obj [] false) 9 exKeyTy (.int exI32 false) ((JVal.obj [0x20] exKeyMs).text ++ [])
    = .ok [(.lit (.int 7), .int 7), (.lit (.int (-12)), .int 7)] := by decide +kernel

/-! ## Where the code does otherwise -/

/-- **C97 is false of the code** for names with escapes: the name `1`, written with an escape, is not read as the integer 1, though as a
string it is the same name. -/
theorem C97_false_for_escapes :
    fromJsonKeyMap {} exEnv 9 exKeyTy (.int exI32 false) asc! "{\"\\u0031\":7}" = .err .invalidNumberStart ∧
    fromJsonKeyMap {} exEnv 9 (.str true) (.int exI32 false) asc! "{\"\\u0031\":7}" = .ok [(.str [0x31], .int 7)] := by decide +kernel

/-- **C97 is false of the code** for a name that is a minus sign and nothing else: it is taken for 0, so two members of the object have the
same key. -/
theorem C97_false_for_minus :
    fromJsonKeyMap {} exEnv 9 exKeyTy (.int exI32 false) asc! "{\"-\":7,\"0\":8}" = .ok [(.lit (.int 0), .int 7), (.lit (.int 0), .int 8)] := by
  decide +kernel

/-- **C97 is false of the code** for integers out of range, with range checks too: 3000000000 is read as a negative `int`. -/
theorem C97_false_out_of_range :
    fromJsonKeyMap {} exEnv 9 (.txt (.quoted true (.int exI32 true))) (.int exI32 false) asc! "{\"3000000000\":7}"
      = .ok [(.lit (.int (-1294967296)), .int 7)] := by decide +kernel

end Verif
