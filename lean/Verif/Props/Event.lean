import Verif.Props.Value
import Verif.Proof.Event
import Verif.Model.FindPath

/-!
# Properties C32 and C33: the event parser

For the checked parser (the default).  A handler is any function of the calls made so far and the current call.  The
sequence of calls is determined by the document; a handler can only cut it short.  `w ++ (d.text ++ k)` is the document:
whitespace, the value, and anything that does not continue the value.
-/

namespace Verif

open Spec

theorem play_prefix (h : Handler) (seen pre post : List Ev)
    (hc : ∀ (i : Nat) (e : Ev), pre[i]? = some e → h (seen ++ pre.take i) e = .cont) :
    play h seen (pre ++ post) = play h (seen ++ pre) post := by
  induction pre generalizing seen with
  | nil => simp
  | cons e es ih =>
    have h0 := hc 0 e rfl
    simp only [List.take_zero, List.append_nil] at h0
    simp only [List.cons_append, play, h0]
    rw [ih]
    · simp
    · intro i x hx
      have := hc (i + 1) x (by simpa using hx)
      simpa using this

theorem play_stop (h : Handler) (as : List Ev) (i : Nat) (e : Ev) (he : as[i]? = some e)
    (hc : ∀ (j : Nat) (x : Ev), j < i → as[j]? = some x → h (as.take j) x = .cont) :
    play h [] as = play h (as.take i) (e :: as.drop (i + 1)) := by
  obtain ⟨hi, rfl⟩ := List.getElem?_eq_some_iff.1 he
  have hE : as.take i ++ (as[i] :: as.drop (i + 1)) = as := by
    rw [← List.drop_eq_getElem_cons hi, List.take_append_drop]
  conv => lhs; rw [← hE]
  rw [play_prefix]
  · simp
  · intro j x hx
    have hj : j < i := by
      have := (List.getElem?_eq_some_iff.1 hx).1
      simp at this; omega
    rw [List.getElem?_take_of_lt hj] at hx
    have := hc j x hj hx
    rw [List.nil_append, List.take_take, Nat.min_eq_left (by omega)]
    exact this

/-! ## C32 -/

/-- **C32, partial.**  For a handler whose callbacks are all called: if it goes on at every call, the calls are exactly the events of the document in document order,
each with the right callback, name and value, and the parse ends without error.  Missing: most callbacks for values and starts of containers are never called, see
`C32_callbacks` and `C32_false`. -/
theorem C32_events_partial (t : TCfg) (hck : t.cfg.checked = true) (d : JVal) (hd : d.WF) (hf : d.Fits) (hn : d.NamesOk t.escNames)
    (w k : Bytes) (hw : IsWs w) (hk : AfterValue k) :
    ∃ as, ReportsAll as (d.events none) ∧ ∀ h : Handler,
      (∀ (i : Nat) (e : Ev), as[i]? = some e → h (as.take i) e = .cont) →
      ∀ fuel, as.length ≤ fuel → eventParse t h fuel (w ++ (d.text ++ k)) = some (as, .ok ()) := by
  obtain ⟨as, h1, h2⟩ := eventParse_play hck d (dok_of hd hf) hn hw hk
  refine ⟨as, h1, fun h hc fuel hfu => ?_⟩
  rw [h2 h fuel hfu]
  have := play_prefix h [] as [] (by simpa using hc)
  rw [List.append_nil] at this
  rw [this]
  rfl

/-- Non-vacuity: the document `{"x":[7] , …}` with a handler that always goes on. -/
example : ∃ as, ReportsAll as (exDoc.events none) ∧ ∃ fuel, eventParse {} (fun _ _ => .cont) fuel exDoc.text = some (as, .ok ()) := by
  obtain ⟨as, h1, h2⟩ := C32_events_partial {} rfl exDoc exDoc_wf exDoc_fits (exDoc_names _) [] [] (by simp [IsWs]) ⟨[], [], by simp [IsWs], rfl, Or.inl rfl⟩
  have := h2 (fun _ _ => .cont) (fun _ _ _ => rfl) as.length (Nat.le_refl _)
  simp only [List.nil_append, List.append_nil] at this
  exact ⟨as, h1, _, this⟩

/-- The calls for `[{"a":1}]`, in full. -/
example : eventParse {} (fun _ _ => .cont) 20 [0x5B, 0x7B, 0x22, 0x61, 0x22, 0x3A, 0x31, 0x7D, 0x5D] =
    some ([.value none [0x5B, 0x7B, 0x22, 0x61, 0x22, 0x3A, 0x31, 0x7D, 0x5D],
      .arrayStart [0x5B, 0x7B, 0x22, 0x61, 0x22, 0x3A, 0x31, 0x7D, 0x5D],
      .value none [0x7B, 0x22, 0x61, 0x22, 0x3A, 0x31, 0x7D, 0x5D], .classStart [0x7B, 0x22, 0x61, 0x22, 0x3A, 0x31, 0x7D, 0x5D],
      .value (some [0x61]) [0x31, 0x7D, 0x5D], .number [0x31, 0x7D, 0x5D], .classEnd, .arrayEnd], .ok ()) := by
  decide +kernel

theorem dispatch_cont (c : Callbacks) (h : Handler) (as : List Ev)
    (hc : ∀ (j : Nat) (e : Ev), (as.filter (detected c))[j]? = some e → h ((as.filter (detected c)).take j) e = .cont)
    (i : Nat) (e : Ev) (he : as[i]? = some e) : dispatch c h (as.take i) e = .cont := by
  unfold dispatch
  split
  · rename_i hd
    obtain ⟨hi, rfl⟩ := List.getElem?_eq_some_iff.1 he
    have hE : as = as.take i ++ (as[i] :: as.drop (i + 1)) := by
      rw [← List.drop_eq_getElem_cons hi, List.take_append_drop]
    have hF : as.filter (detected c) = (as.take i).filter (detected c) ++ (as[i] :: (as.drop (i + 1)).filter (detected c)) := by
      conv => lhs; rw [hE]
      rw [List.filter_append, List.filter_cons, if_pos hd]
    have := hc ((as.take i).filter (detected c)).length as[i] (by rw [hF]; simp)
    rw [hF] at this
    simpa using this
  · rfl

/-- **C32, what the handler sees.**  For every handler type: the calls it gets are the events of the document in document order, less those whose callback the parser
does not find. -/
theorem C32_callbacks (t : TCfg) (hck : t.cfg.checked = true) (d : JVal) (hd : d.WF) (hf : d.Fits) (hn : d.NamesOk t.escNames)
    (w k : Bytes) (hw : IsWs w) (hk : AfterValue k) :
    ∃ as, ReportsAll as (d.events none) ∧ ∀ (c : Callbacks) (h : Handler),
      (∀ (j : Nat) (e : Ev), (as.filter (detected c))[j]? = some e → h ((as.filter (detected c)).take j) e = .cont) →
      ∀ fuel, as.length ≤ fuel → eventParse t (dispatch c h) fuel (w ++ (d.text ++ k)) = some (as, .ok ()) := by
  obtain ⟨as, h1, h2⟩ := C32_events_partial t hck d hd hf hn w k hw hk
  exact ⟨as, h1, fun c h hc fuel hfu => h2 (dispatch c h) (dispatch_cont c h as hc) fuel hfu⟩

/-- **C32 is false of the code** for every handler whose functions take what they are called with, a pair or a value, and not an allocator: the callbacks for values and for starts of
arrays and objects are never called, whatever the document. -/
theorem C32_false (c : Callbacks) (h1 : c .onValue .alloc = false) (h2 : c .onArrayStart .alloc = false) (h3 : c .onClassStart .alloc = false)
    (as : List Ev) (e : Ev) (he : e ∈ as.filter (detected c)) :
    (∀ n v, e ≠ .value n v) ∧ isStart e = false := by
  have hd := (List.mem_filter.1 he).2
  cases e <;> simp_all [detected, isStart]

/-- Such a handler: the one of the library itself. -/
example : pathCallbacks .onValue .pair = true ∧ pathCallbacks .onValue .alloc = false ∧ pathCallbacks .onArrayStart .alloc = false ∧
    pathCallbacks .onClassStart .alloc = false := by decide

/-! ## C33 -/

/-- **C33, partial: stopping.**  If the handler answers `Complete` to a call (and went on before), that is the last call
made, wherever it happens.  The parse then ends normally if no container is open.  Missing: if a container is open the
parse should end normally too, but it ends with an exception: see `C33_complete_false`. -/
theorem C33_complete_partial (t : TCfg) (hck : t.cfg.checked = true) (d : JVal) (hd : d.WF) (hf : d.Fits) (hn : d.NamesOk t.escNames)
    (w k : Bytes) (hw : IsWs w) (hk : AfterValue k) :
    ∃ as, ReportsAll as (d.events none) ∧ ∀ (h : Handler) (i : Nat) (e : Ev), as[i]? = some e →
      (∀ (j : Nat) (x : Ev), j < i → as[j]? = some x → h (as.take j) x = .cont) → h (as.take i) e = .complete →
      ∀ fuel, as.length ≤ fuel → eventParse t h fuel (w ++ (d.text ++ k)) =
        some (as.take (i + 1), if openContainers (as.take (i + 1)) = 0 then .ok () else .err .invalidEndOfValue) := by
  obtain ⟨as, h1, h2⟩ := eventParse_play hck d (dok_of hd hf) hn hw hk
  refine ⟨as, h1, fun h i e he hc hs fuel hfu => ?_⟩
  rw [h2 h fuel hfu, play_stop h as i e he hc]
  have hE : as.take (i + 1) = as.take i ++ [e] := by
    rw [List.take_add_one, he]; rfl
  simp only [play, hs, hE]
  congr 2
  by_cases ho : openContainers (as.take i ++ [e]) = 0
  · simp [ho]
  · rw [if_neg ho, (beq_eq_false_iff_ne.2 ho : (openContainers (as.take i ++ [e]) == 0) = false)]
    rfl

/-- Non-vacuity: the first event of the sample document. -/
example : ∃ as : List Ev, eventParse {} (fun _ _ => .complete) as.length exDoc.text =
    some (as.take 1, if openContainers (as.take 1) = 0 then .ok () else .err .invalidEndOfValue) := by
  obtain ⟨as, h1, h2⟩ := C33_complete_partial {} rfl exDoc exDoc_wf exDoc_fits (exDoc_names _) [] [] (by simp [IsWs]) ⟨[], [], by simp [IsWs], rfl, Or.inl rfl⟩
  refine ⟨as, ?_⟩
  match as with
  | [] => simp [exDoc, JVal.events, ReportsAll] at h1
  | e :: es =>
    have := h2 (fun _ _ => .complete) 0 e rfl (by omega) rfl _ (Nat.le_refl _)
    simpa only [List.nil_append, List.append_nil] using this

/-- `[1]`: a handler that is done when it sees the number gets an exception instead of a normal end. -/
theorem C33_complete_false :
    eventParse {} (fun _ e => if e = .number [0x31, 0x5D] then .complete else .cont) 20 [0x5B, 0x31, 0x5D] =
      some ([.value none [0x5B, 0x31, 0x5D], .arrayStart [0x5B, 0x31, 0x5D], .value none [0x31, 0x5D], .number [0x31, 0x5D]],
        .err .invalidEndOfValue) := by
  decide +kernel

/-- **C33, skipping never works.**  If the handler answers `SkipClassArray` to a call that is not for the end of a
container (and went on before), that is the last call made, and the parse ends with an exception; for the document's own
value (the first two calls) the behaviour is even undefined.  It should go on after the end of the container. -/
theorem C33_skip_is_an_error (t : TCfg) (hck : t.cfg.checked = true) (d : JVal) (hd : d.WF) (hf : d.Fits) (hn : d.NamesOk t.escNames)
    (w k : Bytes) (hw : IsWs w) (hk : AfterValue k) :
    ∃ as, ReportsAll as (d.events none) ∧ ∀ (h : Handler) (i : Nat) (e : Ev), as[i]? = some e → isEnd e = false →
      (∀ (j : Nat) (x : Ev), j < i → as[j]? = some x → h (as.take j) x = .cont) → h (as.take i) e = .skip →
      ∀ fuel, as.length ≤ fuel → eventParse t h fuel (w ++ (d.text ++ k)) =
        some (as.take (i + 1), if i < 2 then .ub else .err .invalidEndOfValue) := by
  obtain ⟨as, h1, h2⟩ := eventParse_play hck d (dok_of hd hf) hn hw hk
  refine ⟨as, h1, fun h i e he hend hc hs fuel hfu => ?_⟩
  rw [h2 h fuel hfu, play_stop h as i e he hc]
  have hE : as.take (i + 1) = as.take i ++ [e] := by
    rw [List.take_add_one, he]; rfl
  have hi := (List.getElem?_eq_some_iff.1 he).1
  simp only [play, hs, hE, hend, Bool.false_eq_true, if_false, List.length_take, Nat.min_eq_left (Nat.le_of_lt hi)]

/-- In unchecked mode skipping at a scalar works: `[[1,2],3]`, skipping at `1`. -/
example : eventParse { cfg := { checked := false } } (fun _ e => if e = .number [0x31, 0x2C, 0x32, 0x5D, 0x2C, 0x33, 0x5D] then .skip else .cont) 20
      [0x5B, 0x5B, 0x31, 0x2C, 0x32, 0x5D, 0x2C, 0x33, 0x5D] =
    some ([.value none [0x5B, 0x5B, 0x31, 0x2C, 0x32, 0x5D, 0x2C, 0x33, 0x5D], .arrayStart [0x5B, 0x5B, 0x31, 0x2C, 0x32, 0x5D, 0x2C, 0x33, 0x5D],
      .value none [0x5B, 0x31, 0x2C, 0x32, 0x5D, 0x2C, 0x33, 0x5D], .arrayStart [0x5B, 0x31, 0x2C, 0x32, 0x5D, 0x2C, 0x33, 0x5D],
      .value none [0x31, 0x2C, 0x32, 0x5D, 0x2C, 0x33, 0x5D], .number [0x31, 0x2C, 0x32, 0x5D, 0x2C, 0x33, 0x5D], .arrayEnd,
      .value none [0x33, 0x5D], .number [0x33, 0x5D], .arrayEnd], .ok ()) := by
  decide +kernel

/-- In unchecked mode skipping at the start of a container skips the rest of the container around it, and the parse still
ends with an exception: `[[1],2]`, skipping at the start of `[1]`. -/
theorem C33_skip_unchecked_false :
    eventParse { cfg := { checked := false } } (fun _ e => if e = .arrayStart [0x5B, 0x31, 0x5D, 0x2C, 0x32, 0x5D] then .skip else .cont) 20
      [0x5B, 0x5B, 0x31, 0x5D, 0x2C, 0x32, 0x5D] =
    some ([.value none [0x5B, 0x5B, 0x31, 0x5D, 0x2C, 0x32, 0x5D], .arrayStart [0x5B, 0x5B, 0x31, 0x5D, 0x2C, 0x32, 0x5D],
      .value none [0x5B, 0x31, 0x5D, 0x2C, 0x32, 0x5D], .arrayStart [0x5B, 0x31, 0x5D, 0x2C, 0x32, 0x5D], .arrayEnd], .err .invalidEndOfValue) := by
  decide +kernel

end Verif
