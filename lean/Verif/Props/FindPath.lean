import Verif.Props.Event

/-!
# Where in the document

C41 and C55.
-/

namespace Verif

open Spec

/-! ## C41 -/

/-- **C41, lines, partial.**  The line number of a position, counting from zero, is the number of newlines in front of it.  Missing: the first position, see `C41_start_false`. -/
theorem C41_line_partial (before after : Bytes) (h : before ≠ []) :
    findLine (before ++ after) before.length = .ok (before.count 0x0A) := by
  have hl : 0 < before.length := List.length_pos_iff.2 h
  have key : ∀ (l : Bytes) (n : Nat), l.foldl (fun n c => if c = chNl then n + 1 else n) n = n + l.count 0x0A := by
    intro l
    induction l with
    | nil => intro n; simp
    | cons c cs ih =>
      intro n
      rw [List.foldl_cons, ih, List.count_cons]
      by_cases hc : c = chNl
      · simp [hc]; omega
      · simp [hc]
  simp [findLine, ensure, hl, key]

/-- **C41, columns, partial.**  The column of a position in the first line is the number of bytes in front of it. -/
theorem C41_first_column_partial (before after : Bytes) (h : before ≠ []) (hn : 0x0A ∉ before) :
    findColumn (before ++ after) before.length = .ok before.length := by
  have hl : 0 < before.length := List.length_pos_iff.2 h
  have : before.reverse.takeWhile (· != chNl) = before.reverse := by
    have h2 := List.takeWhile_append_of_pos (p := (· != chNl)) (l₁ := before.reverse) (l₂ := []) (by
      intro c hc
      have : c ≠ 0x0A := by rintro rfl; exact hn (List.mem_reverse.1 hc)
      simpa using this)
    simpa using h2
  simp [findColumn, ensure, hl, this]

/-- **C41, columns.**  The column of a position in a later line, counting from zero, is the number of bytes between the last newline in front of it and the position. -/
theorem C41_column (lines line after : Bytes) (hn : 0x0A ∉ line) :
    findColumn (lines ++ 0x0A :: (line ++ after)) (lines.length + 1 + line.length) = .ok line.length := by
  have e : lines ++ 0x0A :: (line ++ after) = (lines ++ 0x0A :: line) ++ after := by simp
  have e2 : (lines ++ 0x0A :: line).length = lines.length + 1 + line.length := by simp; omega
  have : (lines ++ 0x0A :: line).reverse.takeWhile (· != chNl) = line.reverse := by
    rw [List.reverse_append, List.reverse_cons, List.append_assoc, List.takeWhile_append_of_pos]
    · simp
    · intro c hc
      have : c ≠ 0x0A := by rintro rfl; exact hn (List.mem_reverse.1 hc)
      simpa using this
  unfold findColumn
  rw [e, ← e2, List.take_left', this]
  · have hp : 0 < lines.length + (line.length + 1) := by omega
    simp [ensure, hp]
  · rfl

/-- Both for `[1,⏎ x`, at the `x`. -/
example : findLine ([0x5B, 0x31, 0x2C, 0x0A, 0x20] ++ [0x78]) 5 = .ok 1 ∧
    findColumn ([0x5B, 0x31, 0x2C] ++ 0x0A :: ([0x20] ++ [0x78])) 5 = .ok 1 :=
  ⟨C41_line_partial [0x5B, 0x31, 0x2C, 0x0A, 0x20] [0x78] (by simp), C41_column [0x5B, 0x31, 0x2C] [0x20] [0x78] (by decide)⟩

/-- **C41 is false of the code** at the very first position, where errors are found if a document starts wrongly: both functions throw. -/
theorem C41_start_false (doc : Bytes) : findLine doc 0 = .err .unexpectedEndOfData ∧ findColumn doc 0 = .err .unexpectedEndOfData := ⟨rfl, rfl⟩

/-! ## C55 -/

/-- No node of the handler says where it is. -/
def PathState.Blank (s : PathState) : Prop := s.state = {} ∧ (∀ n ∈ s.stack, n = {}) ∧ ∀ n, s.lastPopped = some n → n = {}

theorem locStep_blank {cfg : Cfg} {len last : Nat} {s : PathState} (hs : s.Blank) {e : Ev} (he : detected pathCallbacks e = true) :
    (locStep cfg len last s e).1.Blank := by
  have hsc : ∀ off jv, (pathOnScalar cfg len last s off jv).1.Blank := by
    intro off jv
    have hp : PathState.Blank { s with stack := s.state :: s.stack } :=
      ⟨hs.1, by
        intro n hn
        rcases List.mem_cons.1 hn with rfl | hn
        · exact hs.1
        · exact hs.2.1 n hn, hs.2.2⟩
    unfold pathOnScalar
    split
    · split
      · exact hp
      · exact hs
    · exact hp
  have hend : (pathOnEnd s).1.Blank := by
    unfold pathOnEnd
    split
    · exact hs
    · rename_i n tl hst
      have h1 : n = {} := hs.2.1 n (by rw [hst]; exact List.mem_cons_self)
      refine ⟨h1, fun x hx => hs.2.1 x (by rw [hst]; exact List.mem_cons_of_mem _ hx), fun x hx => ?_⟩
      cases hx
      exact h1
  cases e with
  | value => simp [detected, pathCallbacks] at he
  | arrayStart => simp [detected, pathCallbacks] at he
  | classStart => simp [detected, pathCallbacks] at he
  | arrayEnd => exact hend
  | classEnd => exact hend
  | number jv => exact hsc 0 jv
  | bool jv => exact hsc 0 jv
  | null jv => exact hsc 0 jv
  | string jv => exact hsc 1 jv
  | error jv => exact hs

theorem pathRun_blank (cfg : Cfg) (len last : Nat) (es : List Ev) (he : ∀ e ∈ es, detected pathCallbacks e = true) :
    (pathRun cfg len last es).Blank := by
  have key : ∀ (es : List Ev) (s : PathState), s.Blank → (∀ e ∈ es, detected pathCallbacks e = true) →
      (es.foldl (fun s e => (locStep cfg len last s e).1) s).Blank := by
    intro es
    induction es with
    | nil => intro s hs _; exact hs
    | cons e es ih =>
      intro s hs h
      exact ih _ (locStep_blank hs (h e List.mem_cons_self)) fun x hx => h x (List.mem_cons_of_mem _ hx)
  exact key es _ ⟨rfl, by simp, by simp⟩ he

/-- **C55, partial.**  Whatever the document and the position, the path found is the empty one.  That is right for a document that is a single value, and for no position inside an array or an
object: see `C55_false`. -/
theorem C55_path_partial (t : TCfg) (fuel : Nat) (doc : Bytes) (pos : Nat) (p : Bytes) (h : findPath t fuel doc pos = some p) :
    p = [] := by
  unfold findPath findPathStack at h
  simp only [Option.map_eq_some_iff] at h
  obtain ⟨ns, h1, rfl⟩ := h
  split at h1
  · simp at h1
  · simp at h1
  · rename_i seen _ _ _
    have hb := pathRun_blank t.cfg doc.length (pos + 1) (seen.filter (detected pathCallbacks)) fun e he => (List.mem_filter.1 he).2
    simp only [Option.some.injEq] at h1
    subst h1
    generalize pathRun t.cfg doc.length (pos + 1) (seen.filter (detected pathCallbacks)) = s at hb
    have hall : ∀ n ∈ (s.lastPopped.toList ++ s.stack).reverse, pathNodeText n = [] := by
      intro n hn
      rw [List.mem_reverse, List.mem_append] at hn
      rcases hn with hn | hn
      · have := hb.2.2 n (by simpa using hn)
        subst this; rfl
      · have := hb.2.1 n hn
        subst this; rfl
    unfold pathText
    rw [List.flatMap_eq_nil_iff]
    exact hall

/-- **C55 is false of the code**: in `{"a":[1]}` the path to the `1`, at offset 6, should be `.a[0]` and is empty. -/
theorem C55_false : findPath {} 20 [0x7B, 0x22, 0x61, 0x22, 0x3A, 0x5B, 0x31, 0x5D, 0x7D] 6 = some [] := by
  decide +kernel

/-- It would be `.a[0]` if the callbacks for values and starts of containers were called: the handler itself does its work. -/
example :
    (pathRun {} 9 7 [.value none [0x7B, 0x22, 0x61, 0x22, 0x3A, 0x5B, 0x31, 0x5D, 0x7D], .classStart [0x7B, 0x22, 0x61, 0x22, 0x3A, 0x5B, 0x31, 0x5D, 0x7D],
      .value (some [0x61]) [0x5B, 0x31, 0x5D, 0x7D], .arrayStart [0x5B, 0x31, 0x5D, 0x7D], .value none [0x31, 0x5D, 0x7D], .number [0x31, 0x5D, 0x7D]]).stack.reverse.flatMap
        pathNodeText = [0x2E, 0x61, 0x5B, 0x30, 0x5D] := by
  decide +kernel

end Verif
