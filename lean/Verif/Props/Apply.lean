import Verif.Model.Apply
import Verif.Props.Leading
import Verif.Props.Value

/-!
# C94 with a path; C109: `json_apply`
-/

namespace Verif

open Spec

/-! ## C94 -/

/-- **C94.**  `from_json_array<T>` with a path gives what `from_json` with that path gives for an array of `T`: value, error or otherwise,
with any options, for every text and path. -/
theorem C94_with_path (t : TCfg) (Δ : Env) (ty : Ty) (f : Nat) (path s : Bytes) :
    fromJsonArrayPath t Δ f ty path s = fromJsonPath t Δ (f + 1) (.arr ty) path s := by
  have hp : ∀ b, parseU t Δ (f + 1) (.arr ty) b = parseArr t.cfg (parseU t Δ f ty) b := fun b => by rw [parseU]
  have hopt : (Ty.arr ty).isOpt = false := rfl
  unfold fromJsonArrayPath fromJsonPath
  rw [hopt]
  congr 1; funext _
  congr 1; funext jv0
  congr 1; funext jv
  cases hk : jvType t.cfg jv with
  | err e => rfl
  | ub => rfl
  | ok k =>
    simp only [Res.ok_bind, Bool.false_eq_true, and_false, if_false]
    cases hn : (k != Kind.none) with
    | false => rfl
    | true =>
      simp only [ensure_true, Res.ok_bind, hp]
      match jv, hk with
      | [], hk =>
        cases hk
        cases hn
      | c :: cs, hk =>
        have hsp : isSpace c = false := by
          cases hs : isSpace c with
          | false => rfl
          | true =>
            rw [isSpace_iff] at hs
            have hd : ∀ x : UInt8, 0x20 < x.toNat → c ≠ x := fun x hx e => by subst e; omega
            have hdig : isDigit c = false := by
              cases h : isDigit c with
              | false => rfl
              | true =>
                have h' := UInt8.le_iff_toNat_le.1 ((isDigit_iff c).1 h).1
                simp at h'
                omega
            simp only [jvType, hd chQuote (by decide), hd chLBrace (by decide), hd chLBrack (by decide), hd chMinus (by decide), hd chT (by decide),
              hd chF (by decide), hd chN (by decide), hdig, if_false, Bool.false_eq_true, or_self] at hk
            cases hk
            cases hn
        have h1 : trimChecked (c :: cs) = c :: cs := by simp [trimChecked, hsp]
        have h2 : trim t.cfg (c :: cs) = .ok (c :: cs) := by rw [trim_of (cfg := t.cfg) rfl (by rw [h1]; simp), h1]
        unfold parseArr
        rw [trimUnchecked_of rfl (by rw [h1]; simp), h1]
        simp only [Res.ok_bind, h2]
        cases hc : t.cfg.checked <;> cases hb : headIs (fun x => x == chLBrack) (c :: cs) <;> simp [assertWeak, ensure]

/-- Non-vacuity: the array at `a` of `{"a":[true]}` is read; an object in its place is refused. -/
example : fromJsonArrayPath {} exLeadEnv 8 .bool (asc! "a") (asc! "{\"a\":[true]}") = .ok (.arr [.bool true]) ∧
    fromJsonArrayPath {} exLeadEnv 8 .bool (asc! "a") (asc! "{\"a\":{}}") = .err .invalidArrayStart ∧
    fromJsonArrayPath {} exLeadEnv 8 .bool (asc! "b") (asc! "{\"a\":[true]}") = .err .jsonPathNotFound := by decide +kernel

/-! ## C109 -/

/-- **C109.**  A callable with other than one parameter is called with the elements of the array in the document, in order, each read as
the type of its parameter. -/
theorem C109_elements_are_arguments {α : Type} (t : TCfg) (hck : t.cfg.checked = true) (Δ : Env) (henv : EnvOk Δ) (sig : List Ty) (i : Nat)
    (hi : Δ i = .tup sig false) (hsig : sig.length ≠ 1) (w : Bytes) (es : JElems) (vs : List Val)
    (hr : ReadsTuple Δ (Usable t) t.exactAll t.exactAll sig es vs) (hw : (JVal.arr w es).WF) (hf : (JVal.arr w es).Fits)
    (callable : List Val → α) :
    ∃ f0, ∀ f, f0 ≤ f → jsonApply sig i (fun ty => fromJson t Δ f ty (JVal.arr w es).text) callable = .ok (callable vs) := by
  obtain ⟨f0, h⟩ := C50_from_json_reads t hck Δ henv (.ref i) (.arr w es) (.cls vs) (.tup hi (by simpa using hr)) hw hf (endsWell_of rfl)
  refine ⟨f0, fun f hf' => ?_⟩
  match sig, hsig with
  | [], _ => simp [jsonApply, h f hf', Val.components]
  | _ :: _ :: _, _ => simp [jsonApply, h f hf', Val.components]

/-- **C109.**  A callable with one parameter is called with the document, read as the type of the parameter. -/
theorem C109_document_is_argument {α : Type} (t : TCfg) (hck : t.cfg.checked = true) (Δ : Env) (henv : EnvOk Δ) (ty : Ty) (i : Nat)
    (d : JVal) (v : Val) (hr : Reads Δ (Usable t) t.exactAll ty d v) (hw : d.WF) (hf : d.Fits) (he : EndsWell d v)
    (callable : List Val → α) :
    ∃ f0, ∀ f, f0 ≤ f → jsonApply [ty] i (fun ty => fromJson t Δ f ty d.text) callable = .ok (callable [v]) := by
  obtain ⟨f0, h⟩ := C50_from_json_reads t hck Δ henv ty d v hr hw hf he
  exact ⟨f0, fun f hf' => by simp [jsonApply, h f hf']⟩

/-- **C109, partial.**  With a path the same holds of the document at that path.  (Missing: `MustVerifyEndOfDataIsValid`, for which it
is false, `C28_verify_end_false`.) -/
theorem C109_at_path_partial {α : Type} (t : TCfg) (hck : t.cfg.checked = true) (hve : t.verifyEnd = false) (Δ : Env) (henv : EnvOk Δ)
    (d : JVal) (hd : d.WF) (hf : d.Fits) (hn : d.NamesOk t.escNames) (ss : List Step) (hss : ∀ s ∈ ss, s.Ok) (callable : List Val → α)
    (sig : List Ty) (i : Nat) (e : JVal) (h : d.follow ss = some e) :
    (∀ ty v, sig = [ty] → Reads Δ (Usable t) t.exactAll ty e v → EndsWell e v →
      ∃ f0, ∀ f, f0 ≤ f → jsonApply sig i (fun ty => fromJsonPath t Δ f ty (pathText ss) d.text) callable = .ok (callable [v])) ∧
    (∀ w es vs, sig.length ≠ 1 → Δ i = .tup sig false → e = .arr w es → ReadsTuple Δ (Usable t) t.exactAll t.exactAll sig es vs →
      ∃ f0, ∀ f, f0 ≤ f → jsonApply sig i (fun ty => fromJsonPath t Δ f ty (pathText ss) d.text) callable = .ok (callable vs)) := by
  have key : ∀ ty v, Reads Δ (Usable t) t.exactAll ty e v → EndsWell e v →
      ∃ f0, ∀ f, f0 ≤ f → fromJsonPath t Δ f ty (pathText ss) d.text = .ok v := fun ty v hr he => by
    simpa using C28_from_json_at_path_partial t hck hve Δ henv ty d e v hd hf hn ss hss [] [] (by simp [IsWs]) ⟨[], [], by simp [IsWs], rfl, Or.inl rfl⟩ h hr he
  refine ⟨fun ty v hs hr he => ?_, fun w es vs hsig hi he hr => ?_⟩
  · obtain ⟨f0, h⟩ := key ty v hr he
    exact ⟨f0, fun f hf' => by simp [jsonApply, hs, h f hf']⟩
  · subst he
    obtain ⟨f0, h⟩ := key (.ref i) (.cls vs) (.tup hi (by simpa using hr)) (endsWell_of rfl)
    refine ⟨f0, fun f hf' => ?_⟩
    match sig, hsig with
    | [], _ => simp [jsonApply, h f hf', Val.components]
    | _ :: _ :: _, _ => simp [jsonApply, h f hf', Val.components]

/-- `std::tuple<int, bool>`, the arguments of `[]( int, bool )`. -/
def exApEnv : Env
  | 0 => .tup [.int exI32 false, .bool] false
  | _ => .tup [] false

theorem exApEnv_ok : EnvOk exApEnv := by
  refine .classes (fun i ms ex h => ?_) (fun i alts h => ?_) <;> rcases i with _ | i <;> cases h

/-- `[ -12 ,true,null]`. -/
def exApElems : JElems := .cons [0x20] (.num [0x2D, 0x31, 0x32]) [0x20] (.cons [] .tru [] (.cons [] .null [] .nil))

example : (JVal.arr [] exApElems).text = asc! "[ -12 ,true,null]" := by decide

/-- Non-vacuity: the callable is called with -12 and true. -/
example : ∃ f0, ∀ f, f0 ≤ f →
    jsonApply [.int exI32 false, .bool] 0 (fun ty => fromJson {} exApEnv f ty (JVal.arr [] exApElems).text) (fun args => args.reverse)
      = .ok [.bool true, .int (-12)] :=
  C109_elements_are_arguments {} rfl exApEnv exApEnv_ok _ 0 rfl (by decide) [] exApElems [.int (-12), .bool true]
    (.cons (.int (by decide) (by decide) exNum_numeral) (.cons .tru (.nil (by simp) (by simp))))
    ⟨Or.inl ws_nil, ws_sp, exNum_wf, ws_sp, ws_nil, trivial, ws_nil, ws_nil, trivial, ws_nil, trivial⟩ ⟨by decide, by decide⟩ _

/-- A single parameter is not taken from an array, and no parameters from an empty one. -/
example :
    jsonApply [.int exI32 false] 1 (fun ty => fromJson {} exApEnv 9 ty (asc! "[5]")) (fun args => args) = .err .invalidNumberStart ∧
    jsonApply [.int exI32 false] 1 (fun ty => fromJson {} exApEnv 9 ty (asc! "5")) (fun args => args) = .ok [.int 5] ∧
    jsonApply [] 1 (fun ty => fromJson {} exApEnv 9 ty (asc! "[]")) (fun args => args) = .ok [] ∧
    jsonApply [.int exI32 false, .bool] 0 (fun ty => fromJson {} exApEnv 9 ty (asc! "[5]")) (fun args => args) = .err .invalidLiteral := by
  decide +kernel

end Verif
