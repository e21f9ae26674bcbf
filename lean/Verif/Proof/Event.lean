import Verif.Spec.Event
import Verif.Proof.ValueFind

/-!
# The event parser follows the document
-/

namespace Verif

open Spec

variable {t : TCfg}

theorem reportsAll_append {a b : List Ev} {x y : List DocEv} (h1 : ReportsAll a x) (h2 : ReportsAll b y) :
    ReportsAll (a ++ b) (x ++ y) := by
  induction a generalizing x with
  | nil =>
    cases x with
    | nil => exact h2
    | cons => exact h1.elim
  | cons e es ih =>
    cases x with
    | nil => exact h1.elim
    | cons z zs => exact ⟨h1.1, ih h1.2⟩

/-- The character that ends a container. -/
def Frame.closer : Frame → UInt8
  | .cls => chRBrace
  | .array => chRBrack

/-- The character that starts a container. -/
def Frame.opener : Frame → UInt8
  | .cls => chLBrace
  | .array => chLBrack

def Frame.endEv : Frame → Ev
  | .cls => .classEnd
  | .array => .arrayEnd

def Frame.startEv : Frame → JV → Ev
  | .cls => .classStart
  | .array => .arrayStart

def Frame.kind : Frame → Kind
  | .cls => .cls
  | .array => .array

/-- The calls for scalars. -/
def scalarEv (v : JV) : Kind → Option Ev
  | .number => some (.number v)
  | .bool => some (.bool v)
  | .string => some (.string v)
  | .null => some (.null v)
  | _ => none

/-- The calls that are left when the stack is as given. -/
inductive Rem (t : TCfg) : List (Frame × JIter) → List Ev → Prop
  | nil : Rem t [] []
  | close {f it st as} : it.good = .ok false → headIs (· == f.closer) it.pos = true → Rem t st as →
      Rem t ((f, it) :: st) (f.endEv :: as)
  | scalar {f it it' p kd e st as} : it.good = .ok true → it.get t = .ok p → it.next t = .ok it' → jvType t.cfg p.2 = .ok kd →
      scalarEv p.2 kd = some e → Rem t ((f, it') :: st) as → Rem t ((f, it) :: st) (.value p.1 p.2 :: e :: as)
  | opens {f it it' p g ci st as} : it.good = .ok true → it.get t = .ok p → it.next t = .ok it' → jvType t.cfg p.2 = .ok g.kind →
      jvBegin t.cfg p.2 = .ok ci → Rem t ((g, ci) :: (f, it') :: st) as →
      Rem t ((f, it) :: st) (.value p.1 p.2 :: g.startEv p.2 :: as)

/-- A run over a given sequence of calls. -/
def play (h : Handler) (seen : List Ev) : List Ev → List Ev × Res Unit
  | [] => (seen, .ok ())
  | e :: es =>
    match h seen e with
    | .cont => play h (seen ++ [e]) es
    | .complete => (seen ++ [e], ensure (openContainers (seen ++ [e]) == 0) .invalidEndOfValue)
    | .skip =>
      if isEnd e = true then play h (seen ++ [e]) es
      else (seen ++ [e], if seen.length < 2 then .ub else .err .invalidEndOfValue)

/-- The counters agree with the stack. -/
structure Counts (s : EvState) : Prop where
  cls : s.classDepth = ((s.stack.map Prod.fst).count .cls : Nat)
  arr : s.arrayDepth = ((s.stack.map Prod.fst).count .array : Nat)
  open_ : openContainers s.seen = s.classDepth + s.arrayDepth

theorem openContainers_append (a : List Ev) (e : Ev) :
    openContainers (a ++ [e]) = openContainers a + (if isStart e then 1 else 0) - (if isEnd e then 1 else 0) := by
  unfold openContainers
  simp only [List.countP_append, List.countP_singleton]
  cases isStart e <;> cases isEnd e <;> simp <;> omega

theorem ensure_open {c a o : Int} (hc : 0 ≤ c) (ha : 0 ≤ a) (ho : o = c + a) (e : Err) :
    ensure (c == 0 && a == 0) e = ensure (o == 0) e := by
  congr 1
  rw [Bool.eq_iff_iff]
  simp only [Bool.and_eq_true, beq_iff_eq]
  omega

theorem evLoop_nil (h : Handler) (fuel : Nat) (s : EvState) (hs : s.stack = []) :
    evLoop t h fuel (s, .ok ()) = some (s.seen, ensure (s.classDepth == 0 && s.arrayDepth == 0) .invalidEndOfValue) := by
  cases fuel <;> simp [evLoop, hs]

theorem evLoop_cons (h : Handler) (fuel : Nat) (s : EvState) {f it tl} (hs : s.stack = (f, it) :: tl) :
    evLoop t h (fuel + 1) (s, .ok ()) = evLoop t h fuel (evRange t h { s with stack := tl } f it) := by
  rw [evLoop.eq_def]
  simp only [hs]

/-- After a handler asked to skip, the parse ends with an error. -/
theorem evLoop_skip (hck : t.cfg.checked = true) (h : Handler) (fuel : Nat) (hf : 0 < fuel) (s : EvState) {f it tl} (hs : s.stack = (f, it) :: tl) :
    evLoop t h fuel (evStop s .skip) = some (s.seen, .err .invalidEndOfValue) := by
  obtain ⟨n, rfl⟩ : ∃ n, fuel = n + 1 := ⟨fuel - 1, by omega⟩
  simp only [evStop, hs]
  rw [evLoop_cons h n _ rfl]
  cases f <;> simp [evRange, JIter.good, endIter, evClose, hck, headIs, evLoop]

theorem evLoop_complete (h : Handler) (fuel : Nat) (s : EvState) (hc : 0 ≤ s.classDepth) (ha : 0 ≤ s.arrayDepth)
    (ho : openContainers s.seen = s.classDepth + s.arrayDepth) :
    evLoop t h fuel (evStop s .complete) = some (s.seen, ensure (openContainers s.seen == 0) .invalidEndOfValue) := by
  simp only [evStop]
  rw [evLoop_nil _ _ _ rfl, ensure_open hc ha ho]

theorem scalarEv_flags {v : JV} {kd : Kind} {e : Ev} (h : scalarEv v kd = some e) : isStart e = false ∧ isEnd e = false := by
  cases kd <;> simp [scalarEv] at h <;> subst h <;> exact ⟨rfl, rfl⟩

theorem evTyped_scalar (h : Handler) (s : EvState) {v : JV} {kd : Kind} {e : Ev} (hk : jvType t.cfg v = .ok kd)
    (he : scalarEv v kd = some e) : evTyped t h s v = evStop (s.call e) (h s.seen e) := by
  unfold evTyped
  rw [hk]
  cases kd <;> simp [scalarEv] at he <;> subst he <;> rfl

/-- One value: the call that it is reached, what comes after it if the handler goes on. -/
theorem evValue_run (hck : t.cfg.checked = true) (h : Handler) (fuel : Nat) (s : EvState) (p : Option Bytes × JV) (as : List Ev)
    (hst : s.stack ≠ [] ∧ 0 < fuel ∧ 2 ≤ s.seen.length ∨ s.stack = [] ∧ s.seen.length < 2) (hc : Counts s)
    (hcont : evLoop t h fuel (evTyped t h (s.call (.value p.1 p.2)) p.2) = some (play h (s.seen ++ [.value p.1 p.2]) as)) :
    evLoop t h fuel (evValue t h s p) = some (play h s.seen (.value p.1 p.2 :: as)) := by
  unfold evValue play
  have ho : openContainers (s.seen ++ [Ev.value p.1 p.2]) = s.classDepth + s.arrayDepth := by
    rw [openContainers_append, hc.open_]; simp [isStart, isEnd]
  cases hh : h s.seen (.value p.1 p.2) with
  | cont => exact hcont
  | complete =>
    exact evLoop_complete h fuel (s.call _) (by rw [show (s.call _).classDepth = s.classDepth from rfl, hc.cls]; omega)
      (by rw [show (s.call _).arrayDepth = s.arrayDepth from rfl, hc.arr]; omega) ho
  | skip =>
    simp only [isEnd, Bool.false_eq_true, if_false]
    rcases hst with ⟨h1, h2, h3⟩ | ⟨h1, h2⟩
    · rw [if_neg (by omega)]
      obtain ⟨⟨f, it⟩, tl, hs⟩ : ∃ x tl, s.stack = x :: tl := by
        cases hs : s.stack with
        | nil => exact absurd hs h1
        | cons x tl => exact ⟨x, tl, rfl⟩
      exact evLoop_skip hck h fuel h2 (s.call _) hs
    · rw [if_pos h2]
      have : evStop (s.call (.value p.1 p.2)) .skip = (s.call (.value p.1 p.2), .ub) := by
        simp [evStop, EvState.call, h1]
      rw [this]
      cases fuel <;> rfl

/-- A scalar. -/
theorem evScalar_run (hck : t.cfg.checked = true) (h : Handler) (fuel : Nat) (s : EvState) (v : JV) (as : List Ev)
    {kd : Kind} {e : Ev} (hk : jvType t.cfg v = .ok kd) (he : scalarEv v kd = some e)
    (hst : s.stack ≠ [] ∧ 0 < fuel ∧ 2 ≤ s.seen.length ∨ s.stack = [] ∧ s.seen.length < 2) (hc : Counts s)
    (hcont : evLoop t h fuel (s.call e, .ok ()) = some (play h (s.seen ++ [e]) as)) :
    evLoop t h fuel (evTyped t h s v) = some (play h s.seen (e :: as)) := by
  rw [evTyped_scalar h s hk he]
  obtain ⟨hs1, hs2⟩ := scalarEv_flags he
  have ho : openContainers (s.seen ++ [e]) = s.classDepth + s.arrayDepth := by
    rw [openContainers_append, hc.open_]; simp [hs1, hs2]
  unfold play
  cases hh : h s.seen e with
  | cont => exact hcont
  | complete =>
    exact evLoop_complete h fuel (s.call _) (by rw [show (s.call _).classDepth = s.classDepth from rfl, hc.cls]; omega)
      (by rw [show (s.call _).arrayDepth = s.arrayDepth from rfl, hc.arr]; omega) ho
  | skip =>
    simp only [hs2, Bool.false_eq_true, if_false]
    rcases hst with ⟨h1, h2, h3⟩ | ⟨h1, h2⟩
    · rw [if_neg (by omega)]
      obtain ⟨⟨f, it⟩, tl, hs⟩ : ∃ x tl, s.stack = x :: tl := by
        cases hs : s.stack with
        | nil => exact absurd hs h1
        | cons x tl => exact ⟨x, tl, rfl⟩
      exact evLoop_skip hck h fuel h2 (s.call _) hs
    · rw [if_pos h2]
      have : evStop (s.call e) .skip = (s.call e, .ub) := by
        simp [evStop, EvState.call, h1]
      rw [this]
      cases fuel <;> rfl

/-- The state after the start of a container. -/
def EvState.opened (s : EvState) (g : Frame) (v : JV) (ci : JIter) : EvState :=
  { seen := s.seen ++ [g.startEv v]
    stack := (g, ci) :: s.stack
    classDepth := s.classDepth + if g = .cls then 1 else 0
    arrayDepth := s.arrayDepth + if g = .array then 1 else 0 }

theorem startEv_flags (g : Frame) (v : JV) : isStart (g.startEv v) = true ∧ isEnd (g.startEv v) = false := by
  cases g <;> exact ⟨rfl, rfl⟩

theorem opened_counts {s : EvState} (hc : Counts s) (g : Frame) (v : JV) (ci : JIter) : Counts (s.opened g v ci) := by
  have h1 := hc.cls
  have h2 := hc.arr
  have h3 := hc.open_
  refine ⟨?_, ?_, ?_⟩
  · cases g <;> simp [EvState.opened, h1]
  · cases g <;> simp [EvState.opened, h2]
  · simp only [EvState.opened, openContainers_append, startEv_flags, h3]
    cases g <;> simp <;> omega

/-- A container. -/
theorem evOpens_run (hck : t.cfg.checked = true) (h : Handler) (fuel : Nat) (s : EvState) (v : JV) (as : List Ev)
    {g : Frame} {ci : JIter} (hk : jvType t.cfg v = .ok g.kind) (hb : jvBegin t.cfg v = .ok ci)
    (hst : s.stack ≠ [] ∧ 0 < fuel ∧ 2 ≤ s.seen.length ∨ s.stack = [] ∧ s.seen.length < 2) (hc : Counts s)
    (hcont : evLoop t h fuel (s.opened g v ci, .ok ()) = some (play h (s.seen ++ [g.startEv v]) as)) :
    evLoop t h fuel (evTyped t h s v) = some (play h s.seen (g.startEv v :: as)) := by
  have hc' := opened_counts hc g v ci
  have hcls := hc'.cls
  have harr := hc'.arr
  have hop := hc'.open_
  have hE : ∃ s', s'.seen = s.seen ∧ s'.stack = s.stack ∧ s'.classDepth = (s.opened g v ci).classDepth ∧
      s'.arrayDepth = (s.opened g v ci).arrayDepth ∧ evTyped t h s v = evOpen t h s' (g.startEv v) g v := by
    cases g with
    | cls => exact ⟨{ s with classDepth := s.classDepth + 1 }, rfl, rfl, rfl, by simp [EvState.opened], by unfold evTyped; rw [hk]; rfl⟩
    | array => exact ⟨{ s with arrayDepth := s.arrayDepth + 1 }, rfl, rfl, by simp [EvState.opened], rfl, by unfold evTyped; rw [hk]; rfl⟩
  obtain ⟨s', e1, e2, e3, e4, e5⟩ := hE
  rw [e5]
  unfold evOpen play
  rw [e1]
  cases hh : h s.seen (g.startEv v) with
  | cont =>
    simp only [hb]
    rw [← hcont]
    congr 2
    simp only [EvState.call, EvState.opened, e1, e2, EvState.mk.injEq, true_and]
    exact ⟨e3, e4⟩
  | complete =>
    have : (s'.call (g.startEv v)).seen = s.seen ++ [g.startEv v] := by simp [EvState.call, e1]
    rw [← this]
    refine evLoop_complete h fuel (s'.call _) ?_ ?_ ?_
    · show 0 ≤ s'.classDepth
      rw [e3, hcls]; omega
    · show 0 ≤ s'.arrayDepth
      rw [e4, harr]; omega
    · rw [this]
      show _ = s'.classDepth + s'.arrayDepth
      rw [e3, e4]; exact hop
  | skip =>
    simp only [startEv_flags, Bool.false_eq_true, if_false]
    have hseen : (s'.call (g.startEv v)).seen = s.seen ++ [g.startEv v] := by simp [EvState.call, e1]
    rcases hst with ⟨h1, h2, h3⟩ | ⟨h1, h2⟩
    · rw [if_neg (by omega)]
      obtain ⟨⟨f, it⟩, tl, hs⟩ : ∃ x tl, s.stack = x :: tl := by
        cases hs : s.stack with
        | nil => exact absurd hs h1
        | cons x tl => exact ⟨x, tl, rfl⟩
      rw [← hseen]
      exact evLoop_skip hck h fuel h2 (s'.call _) (show s'.stack = _ by rw [e2, hs])
    · rw [if_pos h2]
      have : evStop (s'.call (g.startEv v)) .skip = (s'.call (g.startEv v), .ub) := by
        simp [evStop, EvState.call, h1, e2]
      rw [this, ← hseen]
      cases fuel <;> rfl

/-- The end of a container. -/
theorem evClose_run (h : Handler) (fuel : Nat) (s : EvState) (as : List Ev) {f : Frame} {it : JIter} {tl}
    (hs : s.stack = (f, it) :: tl) (hc : Counts s) (hhd : headIs (· == f.closer) it.pos = true)
    (hcont : ∀ s' : EvState, s'.stack = tl → s'.seen = s.seen ++ [f.endEv] → Counts s' →
      evLoop t h fuel (s', .ok ()) = some (play h (s.seen ++ [f.endEv]) as)) :
    evLoop t h fuel (evClose t h { s with stack := tl } f it) = some (play h s.seen (f.endEv :: as)) := by
  have hcls := hc.cls
  have harr := hc.arr
  have hop := hc.open_
  rw [hs] at hcls harr
  have key : ∀ s' : EvState, s'.stack = tl → s'.seen = s.seen ++ [f.endEv] → s'.classDepth = s.classDepth - (if f = .cls then 1 else 0) →
      s'.arrayDepth = s.arrayDepth - (if f = .array then 1 else 0) →
      evLoop t h fuel ({ s' with stack := if h s.seen f.endEv = .complete then [] else s'.stack }, .ok ()) =
        some (play h s.seen (f.endEv :: as)) := by
    intro s' h1 h2 h3 h4
    have hc' : Counts s' := by
      refine ⟨?_, ?_, ?_⟩
      · rw [h3, h1, hcls]; cases f <;> simp
      · rw [h4, h1, harr]; cases f <;> simp
      · rw [h2, openContainers_append, h3, h4, hop]
        cases f <;> simp [isStart, isEnd, Frame.endEv] <;> omega
    have hend : isEnd f.endEv = true := by cases f <;> rfl
    unfold play
    cases hh : h s.seen f.endEv with
    | cont => simp only [reduceCtorEq, if_false]; exact hcont s' h1 h2 hc'
    | skip => simp only [reduceCtorEq, if_false, hend, if_true]; exact hcont s' h1 h2 hc'
    | complete =>
      simp only [if_true]
      rw [← h2]
      exact evLoop_complete h fuel s' (by rw [hc'.cls]; omega) (by rw [hc'.arr]; omega) hc'.open_
  cases f with
  | cls =>
    have : evClose t h { s with stack := tl } .cls it = ({ ({ s with stack := tl, seen := s.seen ++ [Ev.classEnd], classDepth := s.classDepth - 1 } : EvState) with
      stack := if h s.seen .classEnd = .complete then [] else tl }, .ok ()) := by
      unfold evClose
      simp only
      rw [if_neg]
      · rfl
      · rintro ⟨-, h2⟩
        refine h2 ⟨?_, hhd⟩
        simp at hcls
        omega
    rw [this]
    exact key { s with stack := tl, seen := s.seen ++ [Ev.classEnd], classDepth := s.classDepth - 1 } rfl rfl (by simp) (by simp)
  | array =>
    have : evClose t h { s with stack := tl } .array it = ({ ({ s with stack := tl, seen := s.seen ++ [Ev.arrayEnd], arrayDepth := s.arrayDepth - 1 } : EvState) with
      stack := if h s.seen .arrayEnd = .complete then [] else tl }, .ok ()) := by
      unfold evClose
      simp only
      rw [if_neg]
      · rfl
      · rintro ⟨-, h2⟩
        refine h2 ⟨?_, hhd⟩
        simp at harr
        omega
    rw [this]
    exact key { s with stack := tl, seen := s.seen ++ [Ev.arrayEnd], arrayDepth := s.arrayDepth - 1 } rfl rfl (by simp) (by simp)

/-- The loop makes the calls that are left. -/
theorem rem_run (hck : t.cfg.checked = true) (h : Handler) {st : List (Frame × JIter)} {as : List Ev} (hr : Rem t st as) :
    ∀ (s : EvState) (fuel : Nat), s.stack = st → Counts s → 2 ≤ s.seen.length → as.length ≤ fuel →
      evLoop t h fuel (s, .ok ()) = some (play h s.seen as) := by
  induction hr with
  | nil =>
    intro s fuel hs hc _ _
    have h1 := hc.cls
    have h2 := hc.arr
    rw [hs] at h1 h2
    rw [evLoop_nil _ _ _ hs]
    simp at h1 h2
    simp [play, h1, h2]
  | @close f it st as hg hhd _ ih =>
    intro s fuel hs hc hl hf
    obtain ⟨n, rfl⟩ : ∃ n, fuel = n + 1 := ⟨fuel - 1, by simp at hf; omega⟩
    rw [evLoop_cons h n s hs]
    unfold evRange
    rw [hg]
    refine evClose_run h n s as hs hc hhd ?_
    intro s' h1 h2 h3
    rw [← h2]
    exact ih s' n h1 h3 (by rw [h2]; simp; omega) (by simp at hf; omega)
  | @scalar f it it' p kd e st as hg hget hnext hk he hr' ih =>
    intro s fuel hs hc hl hf
    obtain ⟨n, rfl⟩ : ∃ n, fuel = n + 1 := ⟨fuel - 1, by simp at hf; omega⟩
    have hn : 0 < n := by simp at hf; omega
    rw [evLoop_cons h n s hs]
    unfold evRange
    rw [hg]
    simp only [hget, hnext]
    have hc1 : Counts { s with stack := (f, it') :: st } := by
      refine ⟨?_, ?_, hc.open_⟩
      · show s.classDepth = _
        rw [hc.cls, hs]; cases f <;> simp
      · show s.arrayDepth = _
        rw [hc.arr, hs]; cases f <;> simp
    obtain ⟨hs1, hs2⟩ := scalarEv_flags he
    have hc2 : Counts (({ s with stack := (f, it') :: st } : EvState).call (.value p.1 p.2)) := by
      refine ⟨hc1.cls, hc1.arr, ?_⟩
      show openContainers (s.seen ++ [_]) = s.classDepth + s.arrayDepth
      rw [openContainers_append, hc.open_]; simp [isStart, isEnd]
    have hc3 : Counts ((({ s with stack := (f, it') :: st } : EvState).call (.value p.1 p.2)).call e) := by
      refine ⟨hc1.cls, hc1.arr, ?_⟩
      show openContainers (s.seen ++ [_] ++ [_]) = s.classDepth + s.arrayDepth
      rw [openContainers_append, openContainers_append, hc.open_, hs1, hs2]; simp [isStart, isEnd]
    refine evValue_run hck h n { s with stack := (f, it') :: st } p (e :: as) (Or.inl ⟨by simp, hn, hl⟩) hc1 ?_
    refine evScalar_run hck h n _ p.2 as hk he (Or.inl ⟨by simp [EvState.call], hn, Nat.le_trans hl (by simp [EvState.call])⟩) hc2 ?_
    exact ih _ n rfl hc3 (Nat.le_trans hl (by simp [EvState.call])) (by simp at hf; omega)
  | @opens f it it' p g ci st as hg hget hnext hk hb hr' ih =>
    intro s fuel hs hc hl hf
    obtain ⟨n, rfl⟩ : ∃ n, fuel = n + 1 := ⟨fuel - 1, by simp at hf; omega⟩
    have hn : 0 < n := by simp at hf; omega
    rw [evLoop_cons h n s hs]
    unfold evRange
    rw [hg]
    simp only [hget, hnext]
    have hc1 : Counts { s with stack := (f, it') :: st } := by
      refine ⟨?_, ?_, hc.open_⟩
      · show s.classDepth = _
        rw [hc.cls, hs]; cases f <;> simp
      · show s.arrayDepth = _
        rw [hc.arr, hs]; cases f <;> simp
    have hc2 : Counts (({ s with stack := (f, it') :: st } : EvState).call (.value p.1 p.2)) := by
      refine ⟨hc1.cls, hc1.arr, ?_⟩
      show openContainers (s.seen ++ [_]) = s.classDepth + s.arrayDepth
      rw [openContainers_append, hc.open_]; simp [isStart, isEnd]
    refine evValue_run hck h n { s with stack := (f, it') :: st } p _ (Or.inl ⟨by simp, hn, hl⟩) hc1 ?_
    refine evOpens_run hck h n _ p.2 as hk hb (Or.inl ⟨by simp [EvState.call], hn, Nat.le_trans hl (by simp [EvState.call])⟩) hc2 ?_
    exact ih _ n rfl (opened_counts hc2 g p.2 ci) (Nat.le_trans hl (by simp [EvState.call, EvState.opened])) (by simp at hf; omega)

/-! ## The calls left are those of the document -/

theorem jvBegin_opener {cfg : Cfg} {c : UInt8} {cs : Bytes} {it : JIter} (h : jvBegin cfg (c :: cs) = .ok it) : it.opener = c := by
  simp only [jvBegin] at h
  cases ht : trim cfg cs with
  | err => simp [ht] at h
  | ub => simp [ht] at h
  | ok b => simp [ht] at h; rw [← h]

/-- The iterator is in a container of that kind. -/
def InFrame (f : Frame) (it : JIter) : Prop := it.opener = f.opener

theorem rem_close {f : Frame} {it : JIter} (hc : Cur t [] it) (hf : InFrame f it) {st : List (Frame × JIter)} {as : List Ev}
    (hr : Rem t st as) : Rem t ((f, it) :: st) (f.endEv :: as) := by
  obtain ⟨hg, x, k, hp, hx, hiff⟩ := hc
  refine .close hg ?_ hr
  unfold InFrame at hf
  rw [hp]
  cases f with
  | cls =>
    have : x ≠ chRBrack := fun h => absurd (hf ▸ hiff.2 h : Frame.cls.opener = chLBrack) (by decide)
    rcases hx with h | h
    · exact absurd h this
    · simp [headIs, Frame.closer, h]
  | array =>
    have := hiff.1 hf
    simp [headIs, Frame.closer, this]

mutual
theorem rem_val (hck : t.cfg.checked = true) (d : JVal) (hd : DOk false d) (hn : d.NamesOk t.escNames) {f : Frame} {it it' : JIter}
    {n : Option Bytes} {k : Bytes} {st : List (Frame × JIter)} {as : List Ev} (hg : it.good = .ok true)
    (hget : it.get t = .ok (n, d.text ++ k)) (hk : AfterValue k) (hnext : it.next t = .ok it') (hr : Rem t ((f, it') :: st) as) :
    ∃ es, ReportsAll es (d.events n) ∧ Rem t ((f, it) :: st) (es ++ as) := by
  have hty := jvType_text t.cfg hd.wf k
  match d with
  | .null => exact ⟨[.value n _, .null _], ⟨⟨rfl, k, rfl, hk⟩, ⟨k, rfl, hk⟩, trivial⟩, .scalar hg hget hnext hty rfl hr⟩
  | .tru => exact ⟨[.value n _, .bool _], ⟨⟨rfl, k, rfl, hk⟩, ⟨k, rfl, hk⟩, trivial⟩, .scalar hg hget hnext hty rfl hr⟩
  | .fls => exact ⟨[.value n _, .bool _], ⟨⟨rfl, k, rfl, hk⟩, ⟨k, rfl, hk⟩, trivial⟩, .scalar hg hget hnext hty rfl hr⟩
  | .num x => exact ⟨[.value n _, .number _], ⟨⟨rfl, k, rfl, hk⟩, ⟨k, rfl, hk⟩, trivial⟩, .scalar hg hget hnext hty rfl hr⟩
  | .str b => exact ⟨[.value n _, .string _], ⟨⟨rfl, k, rfl, hk⟩, ⟨k, rfl, hk⟩, trivial⟩, .scalar hg hget hnext hty rfl hr⟩
  | .arr w es =>
    obtain ⟨ci, h1, h2⟩ := jvBegin_cur hck (d := .arr w es) rfl hd hn k
    obtain ⟨cs, hcs⟩ : ∃ cs, (JVal.arr w es).text ++ k = chLBrack :: cs := by cases es <;> exact ⟨_, rfl⟩
    have h3 : InFrame .array ci := by rw [hcs] at h1; exact jvBegin_opener h1
    obtain ⟨evs, h4, h5⟩ := rem_elems hck es hd.elems (by simpa [JVal.NamesOk, JVal.allNames] using hn) h2 h3 hr
    exact ⟨.value n _ :: .arrayStart _ :: evs, ⟨⟨rfl, k, rfl, hk⟩, ⟨k, rfl, hk⟩, h4⟩, .opens (g := .array) hg hget hnext hty h1 h5⟩
  | .obj w ms =>
    obtain ⟨ci, h1, h2⟩ := jvBegin_cur hck (d := .obj w ms) rfl hd hn k
    obtain ⟨cs, hcs⟩ : ∃ cs, (JVal.obj w ms).text ++ k = chLBrace :: cs := by cases ms <;> exact ⟨_, rfl⟩
    have h3 : InFrame .cls ci := by rw [hcs] at h1; exact jvBegin_opener h1
    obtain ⟨evs, h4, h5⟩ := rem_mems hck ms hd.mems (by simpa [JVal.NamesOk, JVal.allNames] using hn) h2 h3 hr
    exact ⟨.value n _ :: .classStart _ :: evs, ⟨⟨rfl, k, rfl, hk⟩, ⟨k, rfl, hk⟩, h4⟩, .opens (g := .cls) hg hget hnext hty h1 h5⟩

theorem rem_elems (hck : t.cfg.checked = true) (es : JElems) (hd : EOk false es) (hn : es.allNames fun n => PlainName n ∨ t.escNames = true)
    {it : JIter} {st : List (Frame × JIter)} {as : List Ev} (hc : Cur t (es.toList.map fun d => (none, d)) it)
    (hf : InFrame .array it) (hr : Rem t st as) :
    ∃ evs, ReportsAll evs (es.events ++ [.arrayEnd]) ∧ Rem t ((.array, it) :: st) (evs ++ as) := by
  match es with
  | .nil => exact ⟨[.arrayEnd], ⟨trivial, trivial⟩, rem_close hc hf hr⟩
  | .cons pre v post tl =>
    simp only [JElems.toList, List.map_cons] at hc
    obtain ⟨hg, -, ⟨k, hget, hk, -⟩, it', hnext, -, hcur⟩ := hc
    simp only [JElems.allNames] at hn
    obtain ⟨e2, h1, h2⟩ := rem_elems hck tl hd.cons.2 hn.2 hcur (by unfold InFrame at *; rw [next_opener hnext, hf]) hr
    obtain ⟨e1, h3, h4⟩ := rem_val hck v hd.cons.1 hn.1 hg hget hk hnext h2
    refine ⟨e1 ++ e2, ?_, by simpa using h4⟩
    simp only [JElems.events, List.append_assoc]
    exact reportsAll_append h3 h1

theorem rem_mems (hck : t.cfg.checked = true) (ms : JMems) (hd : MOk false ms) (hn : ms.allNames fun n => PlainName n ∨ t.escNames = true)
    {it : JIter} {st : List (Frame × JIter)} {as : List Ev} (hc : Cur t (ms.toList.map fun p => (some p.1, p.2)) it)
    (hf : InFrame .cls it) (hr : Rem t st as) :
    ∃ evs, ReportsAll evs (ms.events ++ [.objEnd]) ∧ Rem t ((.cls, it) :: st) (evs ++ as) := by
  match ms with
  | .nil => exact ⟨[.classEnd], ⟨trivial, trivial⟩, rem_close hc hf hr⟩
  | .cons pre n pc qc v post tl =>
    simp only [JMems.toList, List.map_cons] at hc
    obtain ⟨hg, -, ⟨k, hget, hk, -⟩, it', hnext, -, hcur⟩ := hc
    simp only [JMems.allNames] at hn
    obtain ⟨e2, h1, h2⟩ := rem_mems hck tl hd.cons.2.1 hn.2.2 hcur (by unfold InFrame at *; rw [next_opener hnext, hf]) hr
    obtain ⟨e1, h3, h4⟩ := rem_val hck v hd.cons.1 hn.2.1 hg hget hk hnext h2
    refine ⟨e1 ++ e2, ?_, by simpa using h4⟩
    simp only [JMems.events, List.append_assoc]
    exact reportsAll_append h3 h1
end

/-- The whole parse. -/
theorem eventParse_play (hck : t.cfg.checked = true) (d : JVal) (hd : DOk false d) (hn : d.NamesOk t.escNames) {w k : Bytes}
    (hw : IsWs w) (hk : AfterValue k) :
    ∃ as, ReportsAll as (d.events none) ∧ ∀ (h : Handler) (fuel : Nat), as.length ≤ fuel →
      eventParse t h fuel (w ++ (d.text ++ k)) = some (play h [] as) := by
  have hmake : jvMake t.cfg (w ++ (d.text ++ k)) = .ok (d.text ++ k) := by
    simp [jvMake, trim_ck hck, trimChecked_ws _ _ hw, trimChecked_text d hd.wf]
  have hty := jvType_text t.cfg hd.wf k
  have hc0 : Counts ⟨[], [], 0, 0⟩ := ⟨rfl, rfl, rfl⟩
  have hc1 : Counts (EvState.call ⟨[], [], 0, 0⟩ (.value none (d.text ++ k))) := ⟨rfl, rfl, rfl⟩
  have hscalar : ∀ {kd e}, d.kind = kd → scalarEv (d.text ++ k) kd = some e → ReportsAll [.value none (d.text ++ k), e] (d.events none) →
      ∃ as, ReportsAll as (d.events none) ∧ ∀ (h : Handler) (fuel : Nat), as.length ≤ fuel →
      eventParse t h fuel (w ++ (d.text ++ k)) = some (play h [] as) := by
    intro kd e hkd he hrep
    refine ⟨_, hrep, fun h fuel _ => ?_⟩
    unfold eventParse
    rw [hmake]
    refine evValue_run hck h fuel _ (none, d.text ++ k) [e] (Or.inr ⟨rfl, by simp⟩) hc0 ?_
    refine evScalar_run hck h fuel _ (d.text ++ k) [] (hkd ▸ hty) he (Or.inr ⟨rfl, by simp [EvState.call]⟩) hc1 ?_
    rw [evLoop_nil _ _ _ rfl]
    rfl
  have hopen : ∀ {g : Frame} {ci evs}, d.kind = g.kind → jvBegin t.cfg (d.text ++ k) = .ok ci → Rem t [(g, ci)] evs →
      ReportsAll (.value none (d.text ++ k) :: g.startEv (d.text ++ k) :: evs) (d.events none) →
      ∃ as, ReportsAll as (d.events none) ∧ ∀ (h : Handler) (fuel : Nat), as.length ≤ fuel →
      eventParse t h fuel (w ++ (d.text ++ k)) = some (play h [] as) := by
    intro g ci evs hkd hb hr hrep
    refine ⟨_, hrep, fun h fuel hf => ?_⟩
    unfold eventParse
    rw [hmake]
    refine evValue_run hck h fuel _ (none, d.text ++ k) _ (Or.inr ⟨rfl, by simp⟩) hc0 ?_
    refine evOpens_run hck h fuel _ (d.text ++ k) evs (hkd ▸ hty) hb (Or.inr ⟨rfl, by simp [EvState.call]⟩) hc1 ?_
    exact rem_run hck h hr _ fuel rfl (opened_counts hc1 g _ ci) (by simp [EvState.call, EvState.opened]) (by simp at hf; omega)
  match d with
  | .null => exact hscalar rfl rfl ⟨⟨rfl, k, rfl, hk⟩, ⟨k, rfl, hk⟩, trivial⟩
  | .tru => exact hscalar rfl rfl ⟨⟨rfl, k, rfl, hk⟩, ⟨k, rfl, hk⟩, trivial⟩
  | .fls => exact hscalar rfl rfl ⟨⟨rfl, k, rfl, hk⟩, ⟨k, rfl, hk⟩, trivial⟩
  | .num x => exact hscalar rfl rfl ⟨⟨rfl, k, rfl, hk⟩, ⟨k, rfl, hk⟩, trivial⟩
  | .str b => exact hscalar rfl rfl ⟨⟨rfl, k, rfl, hk⟩, ⟨k, rfl, hk⟩, trivial⟩
  | .arr w' es =>
    obtain ⟨ci, h1, h2⟩ := jvBegin_cur hck (d := .arr w' es) rfl hd hn k
    obtain ⟨cs, hcs⟩ : ∃ cs, (JVal.arr w' es).text ++ k = chLBrack :: cs := by cases es <;> exact ⟨_, rfl⟩
    have h3 : InFrame .array ci := by rw [hcs] at h1; exact jvBegin_opener h1
    obtain ⟨evs, h4, h5⟩ := rem_elems hck es hd.elems (by simpa [JVal.NamesOk, JVal.allNames] using hn) h2 h3 .nil
    rw [List.append_nil] at h5
    exact hopen (g := .array) rfl h1 h5 ⟨⟨rfl, k, rfl, hk⟩, ⟨k, rfl, hk⟩, h4⟩
  | .obj w' ms =>
    obtain ⟨ci, h1, h2⟩ := jvBegin_cur hck (d := .obj w' ms) rfl hd hn k
    obtain ⟨cs, hcs⟩ : ∃ cs, (JVal.obj w' ms).text ++ k = chLBrace :: cs := by cases ms <;> exact ⟨_, rfl⟩
    have h3 : InFrame .cls ci := by rw [hcs] at h1; exact jvBegin_opener h1
    obtain ⟨evs, h4, h5⟩ := rem_mems hck ms hd.mems (by simpa [JVal.NamesOk, JVal.allNames] using hn) h2 h3 .nil
    rw [List.append_nil] at h5
    exact hopen (g := .cls) rfl h1 h5 ⟨⟨rfl, k, rfl, hk⟩, ⟨k, rfl, hk⟩, h4⟩

end Verif
