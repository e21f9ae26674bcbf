import Verif.Model.Conv
import Verif.Props.Write

/-!
# C120: custom types with the default converters
-/

namespace Verif

open Spec

/-- The ways in which a type can be written. -/
def Spec.Writes {α : Type} (c : Conv α) (f : α → Bytes) : Prop :=
  c.data = some f ∨ c.toStr = some f ∨ c.ostream = some f ∨ c.toSv = some f ∨ c.toString = some f ∨ c.enum = some f

/-- The ways in which a type can be read. -/
def Spec.ReadsBack {α : Type} (c : Conv α) (g : Bytes → α) : Prop :=
  c.isSv = some g ∨ c.fromStr = some g ∨ c.fromSv = some g ∨ c.fromString = some g ∨ c.istream = some g

/-- Whatever way it is written and read, a value is itself again. -/
def Spec.Inverse {α : Type} (c : Conv α) : Prop := ∀ f g, Writes c f → ReadsBack c g → ∀ v, g (f v) = v

/-- The texts of the type can stand between the quotes of a string, or as a number or a truth value. -/
def Spec.Plain {α : Type} (seven : Bool) (k : CustomKind) (c : Conv α) : Prop :=
  ∀ f, Writes c f → ∀ v, HasTxt (.custom k) (f v) ∧ Seven seven (f v)

variable {α : Type}

theorem defaultTo_writes {c : Conv α} {f : α → Bytes} (h : defaultTo c = some f) : Writes c f := by
  unfold defaultTo at h
  unfold Writes
  repeat' split at h
  all_goals simp_all

theorem defaultFrom_reads {c : Conv α} {f : Bytes → α} (h : defaultFrom c = some f) : ReadsBack c f := by
  unfold defaultFrom at h
  unfold ReadsBack
  repeat' split at h
  all_goals simp_all

theorem strBody_plain : ∀ s : Bytes, (∀ x ∈ s, 0x20 ≤ x ∧ x ≠ 0x22 ∧ x ≠ 0x5C) → IsStrBody s
  | [], _ => .nil
  | c :: cs, h => .plain (h c (by simp)).1 (h c (by simp)).2.1 (h c (by simp)).2.2 (strBody_plain cs fun x hx => h x (by simp [hx]))

/-- **C120, choice.**  A type that can be written in some way is written, and one that can be read in some way is read. -/
theorem C120_total (c : Conv α) : ((∃ f, Writes c f) → ∃ f, defaultTo c = some f) ∧ ((∃ g, ReadsBack c g) → ∃ g, defaultFrom c = some g) := by
  constructor
  · rintro ⟨f, h⟩
    unfold defaultTo
    unfold Writes at h
    repeat' split
    all_goals simp_all
  · rintro ⟨f, h⟩
    unfold defaultFrom
    unfold ReadsBack at h
    repeat' split
    all_goals simp_all

theorem customTexts_map (wr : α → Bytes) (vs : List α) : customTexts (vs.map fun v => .txt (wr v)) = some (vs.map wr) := by
  induction vs with
  | nil => rfl
  | cons v vs ih => simp [customTexts, ih]

theorem customs_hasTy (Δ : Env) (P : Bytes → Prop) (seven : Bool) (k : CustomKind) (wr : α → Bytes) (vs : List α)
    (h : ∀ v ∈ vs, HasTxt (.custom k) (wr v) ∧ Seven seven (wr v)) :
    HasElems Δ P (Seven seven) (.txt (.custom k)) (vs.map fun v => .txt (wr v)) := by
  induction vs with
  | nil => trivial
  | cons v vs ih =>
    have hv := h v (by simp)
    exact ⟨⟨hv.2, hv.1⟩, ih fun x hx => h x (by simp [hx])⟩

theorem customs_depth (wr : α → Bytes) (vs : List α) (h : ∀ v ∈ vs, (wr v).length < 2 ^ 30) :
    depths (vs.map fun v => .txt (wr v)) ≤ 2 ^ 31 := by
  induction vs with
  | nil => exact Nat.zero_le _
  | cons v vs ih =>
    have h1 := h v (by simp)
    have h2 := List.count_le_length (a := 0x5B) (l := wr v)
    have h3 := List.count_le_length (a := 0x7B) (l := wr v)
    refine max_le ?_ (ih fun x hx => h x (by simp [hx]))
    show (wr v).count 0x5B + (wr v).count 0x7B ≤ 2 ^ 31
    omega

theorem toJsonCustoms_ok (w : WCfg) (t : TCfg) (hck : t.cfg.checked = true) (Δ : Env) (hΔ : Writable Δ) (hp : PlainNames t Δ)
    (hx : w.tc = true → NoExactOrdered t Δ) (k : CustomKind) {β : Type} (wr : α → Bytes) (rd : Bytes → β) (vs : List α)
    (hpl : ∀ v ∈ vs, HasTxt (.custom k) (wr v) ∧ Seven w.only7bit (wr v)) (hlen : ∀ v ∈ vs, (wr v).length < 2 ^ 30) :
    ∃ out, toJsonCustoms w Δ k wr vs = .ok out ∧
      (out.length < 2 ^ 63 → ∃ f0, ∀ f, f0 ≤ f → fromJsonCustoms t Δ f k rd out = .ok (vs.map fun v => rd (wr v))) := by
  obtain ⟨out, h1, h2⟩ := C18_round_trip w t hck Δ hΔ hp hx (.arr (.txt (.custom k))) (.arr (vs.map fun v => .txt (wr v)))
    (customs_hasTy Δ _ _ k wr vs hpl) (by
      have := customs_depth wr vs hlen
      show depths _ + 1 < 2 ^ 32
      omega) rfl
  refine ⟨out, h1, fun hl => ?_⟩
  obtain ⟨f0, h⟩ := h2 hl
  refine ⟨f0, fun f hf => ?_⟩
  unfold fromJsonCustoms
  rw [h f hf]
  simp only [Res.ok_bind, customTexts_map, List.map_map]
  rfl

/-- **C120, round trip.**  A container of values of a custom type with the default converters is written and read back as it was, if all conversions that the type has
are inverse to each other and their texts need no escapes; in all formats. -/
theorem C120_round_trip_partial (w : WCfg) (t : TCfg) (hck : t.cfg.checked = true) (Δ : Env) (hΔ : Writable Δ) (hp : PlainNames t Δ)
    (hx : w.tc = true → NoExactOrdered t Δ) (k : CustomKind) (c : Conv α) (hw : ∃ f, Writes c f) (hr : ∃ g, ReadsBack c g) (hinv : Inverse c)
    (hpl : Plain w.only7bit k c) (vs : List α) (hlen : ∀ f, Writes c f → ∀ v ∈ vs, (f v).length < 2 ^ 30) :
    ∃ wr rd out, defaultTo c = some wr ∧ defaultFrom c = some rd ∧ toJsonCustoms w Δ k wr vs = .ok out ∧
      (out.length < 2 ^ 63 → ∃ f0, ∀ f, f0 ≤ f → fromJsonCustoms t Δ f k rd out = .ok vs) := by
  obtain ⟨wr, h1⟩ := (C120_total c).1 hw
  obtain ⟨rd, h2⟩ := (C120_total c).2 hr
  have hwr := defaultTo_writes h1
  obtain ⟨out, h3, h4⟩ := toJsonCustoms_ok w t hck Δ hΔ hp hx k wr rd vs (fun v _ => hpl wr hwr v) (hlen wr hwr)
  refine ⟨wr, rd, out, h1, h2, h3, fun hl => ?_⟩
  obtain ⟨f0, h⟩ := h4 hl
  refine ⟨f0, fun f hf => ?_⟩
  rw [h f hf]
  have : (fun v => rd (wr v)) = id := funext fun v => hinv wr rd hwr (defaultFrom_reads h2) v
  rw [this, List.map_id]

/-- **C120, optionals.**  The same for `std::optional<T>`, all of them with a value, of a type that is not written by a stream or as an enumeration and not read by a
stream or `from_string`. -/
theorem C120_optional_partial (w : WCfg) (t : TCfg) (hck : t.cfg.checked = true) (Δ : Env) (hΔ : Writable Δ) (hp : PlainNames t Δ)
    (hx : w.tc = true → NoExactOrdered t Δ) (k : CustomKind) (c : Conv α)
    (hw : ∃ f, c.data = some f ∨ c.toStr = some f ∨ c.toSv = some f ∨ c.toString = some f)
    (hr : ∃ g, c.isSv = some g ∨ c.fromSv = some g ∨ c.fromString = some g) (hinv : Inverse c)
    (hpl : Plain w.only7bit k c) (vs : List α) (hlen : ∀ f, Writes c f → ∀ v ∈ vs, (f v).length < 2 ^ 30) :
    ∃ wr rd out, defaultToOpt c = some wr ∧ defaultFromOpt c none = some rd ∧ toJsonCustoms w Δ k wr (vs.map some) = .ok out ∧
      (out.length < 2 ^ 63 → ∃ f0, ∀ f, f0 ≤ f → fromJsonCustoms t Δ f k rd out = .ok (vs.map some)) := by
  obtain ⟨f, hf, h1⟩ : ∃ f, Writes c f ∧ defaultToOpt c = some (orNull f) := by
    obtain ⟨f, h⟩ := hw
    unfold defaultToOpt Writes
    cases h1 : c.toStr with
    | some f => exact ⟨f, by simp, rfl⟩
    | none =>
      cases h2 : c.data with
      | some f => exact ⟨f, by simp, rfl⟩
      | none =>
        cases h3 : c.toSv with
        | some f => exact ⟨f, by simp, rfl⟩
        | none =>
          cases h4 : c.toString with
          | some f => exact ⟨f, by simp, rfl⟩
          | none => simp_all
  obtain ⟨g, hg, h2⟩ : ∃ g, ReadsBack c g ∧ defaultFromOpt c none = some (fun b => some (g b)) := by
    obtain ⟨g, h⟩ := hr
    unfold defaultFromOpt ReadsBack
    cases h1 : c.isSv with
    | some f => exact ⟨f, by simp, rfl⟩
    | none =>
      cases h3 : c.fromSv with
      | some f => exact ⟨f, by simp, rfl⟩
      | none =>
        cases h4 : c.fromString with
        | some f => exact ⟨f, by simp, rfl⟩
        | none => simp_all
  obtain ⟨out, h3, h4⟩ := toJsonCustoms_ok w t hck Δ hΔ hp hx k (orNull f) (fun b => some (g b)) (vs.map some)
    (fun v hv => by
      obtain ⟨x, -, rfl⟩ := List.mem_map.1 hv
      exact hpl f hf x)
    (fun v hv => by
      obtain ⟨x, hx, rfl⟩ := List.mem_map.1 hv
      exact hlen f hf x hx)
  refine ⟨_, _, out, h1, h2, h3, fun hl => ?_⟩
  obtain ⟨f0, h⟩ := h4 hl
  refine ⟨f0, fun n hn => ?_⟩
  rw [h n hn, List.map_map]
  congr 1
  refine List.map_congr_left fun v _ => ?_
  show some (g (f v)) = some v
  rw [hinv f g hf hg v]

/-- **C120, optionals with a conversion of their own.**  If `from_string` is given for the optional itself, and reads `null` as the empty one, all of them come back,
empty or not; as strings. -/
theorem C120_own_partial (w : WCfg) (t : TCfg) (hck : t.cfg.checked = true) (Δ : Env) (hΔ : Writable Δ) (hp : PlainNames t Δ)
    (hx : w.tc = true → NoExactOrdered t Δ) (c : Conv α)
    (hw : ∃ f, c.data = some f ∨ c.toStr = some f ∨ c.toSv = some f ∨ c.toString = some f) (hsv : c.isSv = none)
    (own : Bytes → Option α) (hnull : own asc! "null" = none) (hinv : ∀ f, Writes c f → ∀ v, own (f v) = some v)
    (hpl : Plain w.only7bit .str c) (vs : List (Option α)) (hlen : ∀ f, Writes c f → ∀ v, some v ∈ vs → (f v).length < 2 ^ 30) :
    ∃ wr rd out, defaultToOpt c = some wr ∧ defaultFromOpt c (some own) = some rd ∧ toJsonCustoms w Δ .str wr vs = .ok out ∧
      (out.length < 2 ^ 63 → ∃ f0, ∀ f, f0 ≤ f → fromJsonCustoms t Δ f .str rd out = .ok vs) := by
  obtain ⟨f, hf, h1⟩ : ∃ f, Writes c f ∧ defaultToOpt c = some (orNull f) := by
    obtain ⟨f, h⟩ := hw
    unfold defaultToOpt Writes
    cases h1 : c.toStr with
    | some f => exact ⟨f, by simp, rfl⟩
    | none =>
      cases h2 : c.data with
      | some f => exact ⟨f, by simp, rfl⟩
      | none =>
        cases h3 : c.toSv with
        | some f => exact ⟨f, by simp, rfl⟩
        | none =>
          cases h4 : c.toString with
          | some f => exact ⟨f, by simp, rfl⟩
          | none => simp_all
  have h2 : defaultFromOpt c (some own) = some own := by
    unfold defaultFromOpt
    rw [hsv]
  obtain ⟨out, h3, h4⟩ := toJsonCustoms_ok w t hck Δ hΔ hp hx .str (orNull f) own vs
    (fun v _ => by
      cases v with
      | some x => exact hpl f hf x
      | none =>
        show HasTxt (.custom .str) asc! "null" ∧ Seven w.only7bit asc! "null"
        exact ⟨⟨strBody_plain _ (by decide), by decide, by decide, by decide⟩, fun _ => by decide⟩)
    (fun v hv => by
      cases v with
      | some x => exact hlen f hf x hv
      | none =>
        show (asc! "null").length < 2 ^ 30
        decide)
  refine ⟨_, _, out, h1, h2, h3, fun hl => ?_⟩
  obtain ⟨f0, h⟩ := h4 hl
  refine ⟨f0, fun n hn => ?_⟩
  rw [h n hn]
  congr 1
  conv => rhs; rw [← List.map_id vs]
  refine List.map_congr_left fun v _ => ?_
  cases v with
  | none => exact hnull
  | some x => exact hinv f hf x

/-! ## What is lost -/

/-- **C120 is false for what is written by a stream.**  An optional of a type that has only `operator<<`, or is an enumeration, is written as `1`, whatever its
value: no two values can be told apart. -/
theorem C120_stream_false (c : Conv α) (h1 : c.data = none) (h2 : c.toStr = none) (h3 : c.toSv = none) (h4 : c.toString = none) :
    ∃ wr, defaultToOpt c = some wr ∧ ∀ v, wr (some v) = asc! "1" := by
  refine ⟨orNull fun _ => asc! "1", ?_, fun v => rfl⟩
  unfold defaultToOpt
  rw [h2, h1, h3, h4]

/-- **C120 is false for empty optionals.**  Where `T` is convertible from text an empty optional does not come back empty: it is written as the text `null`, and
every text is read as a value. -/
theorem C120_empty_false (c : Conv α) {wr : Option α → Bytes} {rd : Bytes → Option α} (h1 : defaultToOpt c = some wr)
    (h2 : defaultFromOpt c none = some rd) : wr none = asc! "null" ∧ rd (wr none) ≠ none := by
  have hwr : ∃ f, wr = orNull f := by
    unfold defaultToOpt at h1
    repeat' split at h1
    all_goals (simp only [Option.some.injEq] at h1; exact ⟨_, h1.symm⟩)
  have hrd : ∃ g : Bytes → α, rd = fun b => some (g b) := by
    unfold defaultFromOpt at h2
    repeat' split at h2
    all_goals first | (rename_i heq; cases heq) | (simp only [Option.some.injEq] at h2; exact ⟨_, h2.symm⟩) | cases h2
  obtain ⟨f, rfl⟩ := hwr
  obtain ⟨g, rfl⟩ := hrd
  exact ⟨rfl, by simp⟩

/-- A type that is text, as `std::string` is. -/
def exText : Conv Bytes := { data := some id, toSv := some id, toString := some id, fromString := some id }

/-- The empty optional of a string that is stored as a custom type: written as `"null"`, and read as the string `null`. -/
theorem C120_false : ∃ wr rd, defaultToOpt exText = some wr ∧ defaultFromOpt exText none = some rd ∧
    toJsonCustoms {} exEnv .str wr [none, some asc! "a"] = .ok asc! "[\"null\",\"a\"]" ∧
    fromJsonCustoms {} exEnv 5 .str rd asc! "[\"null\",\"a\"]" = .ok [some asc! "null", some asc! "a"] ∧
    (∃ wr, defaultTo exText = some wr ∧ toJsonCustoms {} exEnv .str wr [asc! "a\"b"] = .ok asc! "[\"a\"b\"]") :=
  ⟨_, _, rfl, rfl, by decide +kernel, by decide +kernel, _, rfl, by decide +kernel⟩

/-- Three signals as an enumeration with `to_string` and `from_string`. -/
def exSignal : Conv (Fin 3) :=
  { toStr := some fun v => if v = 0 then asc! "red" else if v = 1 then asc! "amber" else asc! "green"
    enum := some fun v => [0x30 + UInt8.ofNat v.val]
    fromStr := some fun b => if b = asc! "red" ∨ b = asc! "0" then 0 else if b = asc! "amber" ∨ b = asc! "1" then 1 else 2 }

theorem exSignal_writes {f : Fin 3 → Bytes} (h : Writes exSignal f) : exSignal.toStr = some f ∨ exSignal.enum = some f := by
  unfold Writes at h
  simpa [exSignal] using h

/-- Non-vacuity: what is written and read. -/
example : ∃ wr rd out, defaultTo exSignal = some wr ∧ defaultFrom exSignal = some rd ∧ toJsonCustoms {} exEnv .str wr [1, 0, 2] = .ok out ∧
    (out.length < 2 ^ 63 → ∃ f0, ∀ f, f0 ≤ f → fromJsonCustoms {} exEnv f .str rd out = .ok [1, 0, 2]) := by
  refine C120_round_trip_partial {} {} rfl exEnv exEnv_writable (exEnv_plain _) (by simp) .str exSignal ⟨_, Or.inr (Or.inl rfl)⟩ ⟨_, Or.inr (Or.inl rfl)⟩
    ?_ ?_ _ ?_
  · intro f g hf hg v
    have hg' : exSignal.fromStr = some g := by
      unfold ReadsBack at hg
      simpa [exSignal] using hg
    rcases exSignal_writes hf with h | h <;> cases h <;> cases hg' <;> revert v <;> decide
  · intro f hf v
    refine ⟨?_, fun h => absurd h (by decide)⟩
    have key : (∀ x ∈ f v, 0x20 ≤ x ∧ x ≠ 0x22 ∧ x ≠ 0x5C) ∧ f v ≠ [] ∧ (f v).head? ≠ some 0x5B ∧ (f v).head? ≠ some 0x7B := by
      rcases exSignal_writes hf with h | h <;> cases h <;> revert v <;> decide
    exact ⟨strBody_plain _ key.1, key.2⟩
  · intro f hf v _
    rcases exSignal_writes hf with h | h <;> cases h <;> revert v <;> decide

/-- Yes or no, with `to_string` and a constructor from `std::string`. -/
def exYes : Conv Bool := { toStr := some fun v => if v then asc! "yes" else asc! "no", fromString := some fun b => decide (b = asc! "yes") }

/-- Non-vacuity for optionals. -/
example : ∃ wr rd out, defaultToOpt exYes = some wr ∧ defaultFromOpt exYes none = some rd ∧
    toJsonCustoms {} exEnv .str wr [some true, some false] = .ok out ∧
    (out.length < 2 ^ 63 → ∃ f0, ∀ f, f0 ≤ f → fromJsonCustoms {} exEnv f .str rd out = .ok [some true, some false]) := by
  have hw : ∀ {f : Bool → Bytes}, Writes exYes f → exYes.toStr = some f := by
    intro f h
    unfold Writes at h
    simpa [exYes] using h
  refine C120_optional_partial {} {} rfl exEnv exEnv_writable (exEnv_plain _) (by simp) .str exYes ⟨_, Or.inr (Or.inl rfl)⟩ ⟨_, Or.inr (Or.inr rfl)⟩
    ?_ ?_ [true, false] ?_
  · intro f g hf hg v
    have hg' : exYes.fromString = some g := by
      unfold ReadsBack at hg
      simpa [exYes] using hg
    cases hw hf
    cases hg'
    revert v
    decide
  · intro f hf v
    refine ⟨?_, fun h => absurd h (by decide)⟩
    have key : (∀ x ∈ f v, 0x20 ≤ x ∧ x ≠ 0x22 ∧ x ≠ 0x5C) ∧ f v ≠ [] ∧ (f v).head? ≠ some 0x5B ∧ (f v).head? ≠ some 0x7B := by
      cases hw hf
      revert v
      decide
    exact ⟨strBody_plain _ key.1, key.2⟩
  · intro f hf v _
    cases hw hf
    revert v
    decide

/-- Non-vacuity for streams: two values, one text. -/
example : ∃ wr, defaultToOpt ({ ostream := some fun v => if v then asc! "on" else asc! "off" } : Conv Bool) = some wr ∧ wr (some true) = wr (some false) := by
  obtain ⟨wr, h1, h2⟩ := C120_stream_false ({ ostream := some fun v => if v then asc! "on" else asc! "off" } : Conv Bool) rfl rfl rfl rfl
  exact ⟨wr, h1, by rw [h2, h2]⟩

/-- Non-vacuity: with empty ones in between. -/
example : ∃ wr rd out, defaultToOpt exYes = some wr ∧
    defaultFromOpt exYes (some fun b => if b = asc! "null" then none else some (decide (b = asc! "yes"))) = some rd ∧
    toJsonCustoms {} exEnv .str wr [some true, none, some false] = .ok out ∧
    (out.length < 2 ^ 63 → ∃ f0, ∀ f, f0 ≤ f → fromJsonCustoms {} exEnv f .str rd out = .ok [some true, none, some false]) := by
  have hw : ∀ {f : Bool → Bytes}, Writes exYes f → exYes.toStr = some f := by
    intro f h
    unfold Writes at h
    simpa [exYes] using h
  refine C120_own_partial {} {} rfl exEnv exEnv_writable (exEnv_plain _) (by simp) exYes ⟨_, Or.inr (Or.inl rfl)⟩ rfl _ (by decide) ?_ ?_ _ ?_
  · intro f hf v
    cases hw hf
    revert v
    decide
  · intro f hf v
    refine ⟨?_, fun h => absurd h (by decide)⟩
    have key : (∀ x ∈ f v, 0x20 ≤ x ∧ x ≠ 0x22 ∧ x ≠ 0x5C) ∧ f v ≠ [] ∧ (f v).head? ≠ some 0x5B ∧ (f v).head? ≠ some 0x7B := by
      cases hw hf
      revert v
      decide
    exact ⟨strBody_plain _ key.1, key.2⟩
  · intro f hf v _
    cases hw hf
    revert v
    decide

end Verif
