import Verif.Model.KeyMap
import Verif.Spec.KeyMap
import Verif.Proof.TypedTop
import Verif.Proof.WriteReads
import Verif.Proof.Sound

/-!
# Maps with keys that are not strings: reading and writing
-/

namespace Verif

open Spec

/-! ## Reading -/

/-- `pk` reads the name `n` as the key `kv`, in front of the colon. -/
def KeySem (pk : Bytes → Res (Val × Bytes)) (n : Bytes) (kv : Val) : Prop :=
  ∀ pc k, IsWs pc → ∃ r, pk ((JVal.str n).text ++ (pc ++ chColon :: k)) = .ok (kv, r) ∧ TrimEq r (pc ++ chColon :: k)

def KeyedSem (ck : Bool) (pk p : Bytes → Res (Val × Bytes)) : JMems → List (Val × Val) → Prop
  | .nil, [] => True
  | .cons _ n _ _ d _ tl, (k, v) :: kvs => KeySem pk n k ∧ SemU ck p d v ∧ KeyedSem ck pk p tl kvs
  | _, _ => False

theorem trimEndOfName_te {cfg : Cfg} {pc qc k r : Bytes} (hr : TrimEq r (pc ++ chColon :: (qc ++ k))) (hk : Nonsp k) (hpc : IsWs pc)
    (hqc : IsWs qc) : trimEndOfName cfg r = .ok (trimChecked k) := by
  have h1 : trimChecked (pc ++ chColon :: (qc ++ k)) = chColon :: (qc ++ k) := by
    rw [trimChecked_ws _ _ hpc, trimChecked_cons_of_not _ (by decide)]
  have h2 : trimChecked r = chColon :: (qc ++ k) := by rw [trimChecked_trimEq hr, h1]
  rw [← trimEndOfName_ck (cfg := cfg) hk hpc hqc]
  unfold trimEndOfName
  rw [trim_of h1 (by simp), trim_of h2 (by simp)]

theorem keyLoop_sem {cfg : Cfg} {ck : Bool} {pk p : Bytes → Res (Val × Bytes)} {tc : Bool} {w k : Bytes} (hw : IsTail tc w) :
    ∀ (tl : JMems) (pre n pc qc : Bytes) (d : JVal) (post : Bytes) (kv : Val × Val) (kvs : List (Val × Val)),
      (JMems.cons pre n pc qc d post tl).WFt tc → KeyedSem ck pk p (.cons pre n pc qc d post tl) (kv :: kvs) →
      ∃ r, keyLoop cfg pk p (objRest w k (.cons pre n pc qc d post tl)) = .ok (kv :: kvs, r) ∧ TrimEq r k
  | tl, pre, n, pc, qc, d, post, (ky, v), kvs, hwf, hs => by
    obtain ⟨-, hn, hpc, hqc, hd, hpost, htl⟩ := (by simpa only [JMems.WFt] using hwf :
      IsWs pre ∧ IsStrBody n ∧ IsWs pc ∧ IsWs qc ∧ d.WFt tc ∧ IsWs post ∧ tl.WFt tc)
    obtain ⟨hs0, hs1, hs2⟩ := (by simpa only [KeyedSem] using hs :
      KeySem pk n ky ∧ SemU ck p d v ∧ KeyedSem ck pk p tl kvs)
    obtain ⟨r, hr, htr⟩ := hs1 _ (fun _ => objAfter_follows (tl := tl) (k := k) _ _ hpost hw) (fun _ => objAfter_nonsp _ _ _ _)
    obtain ⟨r0, hr0, htr0⟩ := hs0 pc (qc ++ (d.text ++ objAfter post tl w k)) hpc
    have hmv : moveNextChecked r = objRest w k tl := by
      rw [moveNextChecked_trimEq htr, moveNext_obj hpost htl hw]
    have hnm := trimEndOfName_te (cfg := cfg) htr0 (text_nonsp hd (objAfter post tl w k)) hpc hqc
    rw [trimChecked_text d hd] at hnm
    have hmv' : moveNext cfg r = .ok (objRest w k tl) := moveNext_of hmv (objRest_ne _ _ _)
    have hobj : objRest w k (.cons pre n pc qc d post tl)
        = (JVal.str n).text ++ (pc ++ chColon :: (qc ++ (d.text ++ objAfter post tl w k))) := by
      simp [objRest, JVal.text]
    have hne : ((JVal.str n).text ++ (pc ++ chColon :: (qc ++ (d.text ++ objAfter post tl w k)))).isEmpty = false := by
      simp [JVal.text]
    rw [hobj]
    unfold keyLoop
    simp only [assertWeak_tt, hne, Bool.not_false, Res.ok_bind, hr0, hnm, hr, hmv']
    match tl, kvs, hs2 with
    | .nil, [], _ =>
      simp only [objRest, List.isEmpty_cons, Bool.not_false, assertWeak_tt, Res.ok_bind, deref_cons, if_true,
        List.tail_cons]
      exact ⟨_, rfl, trimChecked_te (TrimEq.refl k)⟩
    | .cons pre' n' pc' qc' d' post' tl', kv' :: kvs', hs2 =>
      have hl := objRest_length w k post (.cons pre' n' pc' qc' d' post' tl')
      obtain ⟨r', hr', ht'⟩ := keyLoop_sem hw (k := k) tl' pre' n' pc' qc' d' post' kv' kvs' htl hs2
      have hlt : (objRest w k (.cons pre' n' pc' qc' d' post' tl')).length
          < ((JVal.str n).text ++ (pc ++ chColon :: (qc ++ (d.text ++
              objAfter post (.cons pre' n' pc' qc' d' post' tl') w k)))).length := by
        simp only [List.length_append, List.length_cons]; omega
      have hde : deref (objRest w k (.cons pre' n' pc' qc' d' post' tl')) = .ok chQuote := rfl
      have hem : (objRest w k (.cons pre' n' pc' qc' d' post' tl')).isEmpty = false := rfl
      simp only [hem, hde, Bool.not_false, assertWeak_tt, Res.ok_bind]
      rw [if_neg (by decide), dif_pos hlt, hr']
      exact ⟨r', rfl, ht'⟩
    | .nil, _ :: _, h => simp [KeyedSem] at h
    | .cons .., [], h => simp [KeyedSem] at h

theorem parseKeyMap_sem {cfg : Cfg} {ck : Bool} {pk p : Bytes → Res (Val × Bytes)} {tc : Bool} {w : Bytes}
    {ms : JMems} {kvs : List (Val × Val)} (hwf : (JVal.obj w ms).WFt tc) (he : ms = .nil → IsWs w)
    (hs : KeyedSem ck pk p ms kvs) (k : Bytes) : ∃ r, parseKeyMap cfg pk p ((JVal.obj w ms).text ++ k) = .ok (kvs, r) ∧ TrimEq r k := by
  simp only [JVal.WFt] at hwf
  unfold parseKeyMap
  match ms, kvs, hs with
  | .nil, [], _ =>
    have hw := he rfl
    have h1 : (JVal.obj w .nil).text ++ k = chLBrace :: (w ++ chRBrace :: k) := by simp [JVal.text]
    have h2 : trimChecked (w ++ chRBrace :: k) = chRBrace :: k := by
      rw [trimChecked_ws _ _ hw, trimChecked_cons_of_not _ (by decide)]
    simp only [h1, assertWeak_tt, headIs, beq_self_eq_true, ensure_true, Res.ok_bind, trim_of h2 (by simp),
      List.tail_cons, deref_cons, if_true, List.isEmpty_cons, Bool.not_false]
    exact ⟨_, rfl, trimChecked_te (TrimEq.refl k)⟩
  | .cons pre n pc qc d post tl, kv :: kvs, hs =>
    have htl := hwf.2
    simp only [JMems.WFt] at htl
    have h2 : trimChecked (pre ++ objRest w k (.cons pre n pc qc d post tl))
        = objRest w k (.cons pre n pc qc d post tl) := by
      rw [trimChecked_ws _ _ htl.1]
      exact trimChecked_cons_of_not _ (by decide)
    have hde : deref (objRest w k (.cons pre n pc qc d post tl)) = .ok chQuote := rfl
    have hem : (objRest w k (.cons pre n pc qc d post tl)).isEmpty = false := rfl
    obtain ⟨r, hr, ht⟩ := keyLoop_sem (cfg := cfg) hwf.1 (k := k) tl pre n pc qc d post kv kvs hwf.2 hs
    simp only [obj_text, assertWeak_tt, headIs, beq_self_eq_true, ensure_true, Res.ok_bind, trim_of h2 (objRest_ne _ _ _),
      List.tail_cons, hde, hem, Bool.not_false]
    rw [if_neg (by decide), hr]
    exact ⟨r, rfl, ht⟩
  | .nil, _ :: _, h => simp [KeyedSem] at h
  | .cons .., [], h => simp [KeyedSem] at h

/-- A literal in quotes, in front of a colon. -/
theorem parseLit_key (cfg : Cfg) {l : LitTy} {n : Bytes} {x : Lit} (h : LitText l n x) {pc : Bytes} (hpc : IsWs pc) (k : Bytes) :
    ∃ r, parseLit cfg true l ((JVal.str n).text ++ (pc ++ chColon :: k)) = .ok (x, r) ∧ TrimEq r (pc ++ chColon :: k) := by
  have h1 : trimChecked (pc ++ chColon :: k) = chColon :: k := by
    rw [trimChecked_ws _ _ hpc, trimChecked_cons_of_not _ (by decide)]
  have hs : (JVal.str n).text ++ (pc ++ chColon :: k) = chQuote :: (n ++ chQuote :: (pc ++ chColon :: k)) := by simp [JVal.text]
  rw [hs]
  refine parseLit_gen h (skipQuote_quote cfg true _) (noDig_quote _) (skipQuote_quote cfg true _) (trim_of h1 (by simp)) ?_ ⟨?_, rfl⟩
    (by simp)
  · have := trimChecked_te (TrimEq.refl (pc ++ chColon :: k))
    rwa [h1] at this
  · cases pc with
    | nil => rfl
    | cons y pc =>
      have := hpc y (by simp)
      unfold isWsByte at this
      rcases this with rfl | rfl | rfl | rfl <;> rfl

section
variable {t : TCfg} {Δ : Env} {nm : List Bytes → Bytes → Prop} {ea tc : Bool}

/-- A key is read as from a document that is the name. -/
theorem key_sem (hck : t.cfg.checked = true) (henv : EnvOk Δ)
    (hnm : ∀ N n, nm N n → NameOk t N n ∧ (PlainName n ∨ t.escNames = true)) (hea : ea = t.exactAll) {kt : Ty} (hkt : KeyTy kt) {n : Bytes}
    {kv : Val} (h : Reads Δ nm ea kt (.str n) kv) (hn : IsStrBody n) (hl : (JVal.str n).text.length < 2 ^ 63) :
    ∀ f, 1 ≤ f → KeySem (parseU t Δ f kt) n kv := by
  have hd : DOk false (.str n) := ⟨by simpa [JVal.WFt] using hn, by simp [JVal.depth], hl⟩
  have other : kv.bareLit = false → ∀ f, 1 ≤ f → KeySem (parseU t Δ f kt) n kv := by
    intro hb f hf
    obtain ⟨f0, hf0⟩ := reads_sem hck henv hnm hea h hd
    obtain ⟨f, rfl⟩ : ∃ g, f = g + 1 := ⟨f - 1, by omega⟩
    have hsame : parseU t Δ (f + 1) kt = parseU t Δ (f0 + 1) kt := by
      cases hkt <;> (funext s; simp [parseU])
    rw [hsame]
    intro pc k hpc
    refine (hf0 (f0 + 1) (by omega)).1 (pc ++ chColon :: k) (fun he => ?_) (fun hc => by rw [hck] at hc; cases hc)
    simp [JVal.ends, JVal.closed, hb] at he
  cases hkt with
  | str => cases h; exact other rfl
  | rawStr => rcases h with _ | _ | _ | _ | ⟨h⟩; cases h; exact other rfl
  | date => rcases h with _ | _ | _ | _ | ⟨h⟩; cases h; exact other rfl
  | custom => rcases h with _ | _ | _ | _ | ⟨h⟩; cases h with
    | customStr => exact other rfl
    | customLit h => exact absurd rfl h
  | quoted =>
    intro f hf pc k hpc
    obtain ⟨f, rfl⟩ : ∃ g, f = g + 1 := ⟨f - 1, by omega⟩
    rcases h with _ | _ | _ | _ | ⟨h⟩
    cases h with
    | quoted hx =>
      obtain ⟨r, hr, htr⟩ := parseLit_key t.cfg hx hpc k
      exact ⟨r, by simp only [parseU, parseTxt, hr, Res.ok_bind], htr⟩

theorem keyed_sem (hck : t.cfg.checked = true) (henv : EnvOk Δ)
    (hnm : ∀ N n, nm N n → NameOk t N n ∧ (PlainName n ∨ t.escNames = true)) (hea : ea = t.exactAll) {kt ty : Ty} (hkt : KeyTy kt)
    {ms : JMems} {kvs : List (Val × Val)} (h : ReadsKeyed Δ nm ea kt ty ms kvs) (hm : MOk tc ms) :
    ∃ f0, ∀ f, f0 ≤ f → KeyedSem t.cfg.checked (parseU t Δ f kt) (parseU t Δ f ty) ms kvs := by
  induction h with
  | nil => exact ⟨0, fun f _ => trivial⟩
  | @cons pre n pc qc d post tl k v kvs hk hv _ ih =>
    obtain ⟨f1, h1⟩ := ih hm.cons.2.1
    obtain ⟨f2, h2⟩ := reads_sem hck henv hnm hea hv hm.cons.1
    have hwf := hm.wf
    simp only [JMems.WFt] at hwf
    have hsz : (JVal.str n).text.length < 2 ^ 63 := by
      have := hm.size
      simp only [JMems.text, JVal.text, List.length_cons, List.length_append, List.length_nil] at this ⊢
      omega
    have h3 := key_sem hck henv hnm hea hkt hk hwf.2.1 hsz
    exact ⟨max 1 (max f1 f2), fun f hf => ⟨h3 f (by omega), (h2 f (by omega)).1, h1 f (by omega)⟩⟩

theorem fromJsonKeyMap_reads (hck : t.cfg.checked = true) (henv : EnvOk Δ)
    (hnm : ∀ N n, nm N n → NameOk t N n ∧ (PlainName n ∨ t.escNames = true)) (hea : ea = t.exactAll) {kt ty : Ty} (hkt : KeyTy kt)
    {w : Bytes} {ms : JMems} {kvs : List (Val × Val)} (h : ReadsKeyed Δ nm ea kt ty ms kvs) (he : ms = .nil → IsWs w)
    (hd : DOk tc (.obj w ms)) (hm : MOk tc ms) (k : Bytes) :
    ∃ f0, ∀ f, f0 ≤ f → fromJsonKeyMap t Δ f kt ty ((JVal.obj w ms).text ++ k) =
      if t.verifyEnd = true ∧ trimChecked (dropNul k) ≠ [] then .err .invalidEndOfValue else .ok kvs := by
  obtain ⟨f0, hf0⟩ := keyed_sem hck henv hnm hea hkt h hm
  refine ⟨f0, fun f hf => ?_⟩
  obtain ⟨r, hr, htr⟩ := parseKeyMap_sem (cfg := t.cfg) hd.wf he (hf0 f hf) (dropNul k)
  unfold fromJsonKeyMap
  have hem : ((JVal.obj w ms).text ++ k).isEmpty = false := text_ne_empty hd.wf k
  have hn : (if ((JVal.obj w ms).text ++ k).getLast? = some 0 then ((JVal.obj w ms).text ++ k).dropLast else (JVal.obj w ms).text ++ k)
      = (JVal.obj w ms).text ++ dropNul k := dropNul_append hd.wf k
  simp only [hem, Bool.not_false, ensure_true, Res.ok_bind, hn, hr, trim_ck hck, trimChecked_trimEq htr]
  cases t.verifyEnd with
  | false => simp
  | true => cases trimChecked (dropNul k) <;> simp [ensure]

end

/-! ## Writing -/

theorem keyTy_str {Δ : Env} {nm : List Bytes → Bytes → Prop} {ea : Bool} {kt : Ty} (hkt : KeyTy kt) {d : JVal} {v : Val}
    (h : Reads Δ nm ea kt d v) : ∃ n, d = .str n := by
  cases hkt with
  | str => cases h; exact ⟨_, rfl⟩
  | rawStr => rcases h with _ | _ | _ | _ | ⟨h⟩; cases h; exact ⟨_, rfl⟩
  | date => rcases h with _ | _ | _ | _ | ⟨h⟩; cases h; exact ⟨_, rfl⟩
  | custom => rcases h with _ | _ | _ | _ | ⟨h⟩; cases h with
    | customStr => exact ⟨_, rfl⟩
    | customLit h => exact absurd rfl h
  | quoted => rcases h with _ | _ | _ | _ | ⟨h⟩; cases h; exact ⟨_, rfl⟩

theorem writeKeyed_lay {w : WCfg} {Δ : Env} {nm : List Bytes → Bytes → Prop} {ea : Bool} (hΔ : Writable Δ) (hr : Readable nm ea w.tc Δ)
    {kt ty : Ty} (hkt : KeyTy kt) (n : Nat) :
    ∀ kvs : List (Val × Val), HasKeyed Δ ValidUtf8 (Seven w.only7bit) kt ty kvs →
      ∃ es : JMems, writeKeyed w Δ n kt ty kvs = .ok es.text1 ∧ ReadsKeyed Δ nm ea kt ty es kvs ∧ es.WFt w.tc ∧
        (kvs.isEmpty = true ↔ es = .nil) ∧ ∀ D, (∀ p ∈ kvs, p.2.depth ≤ D) → es.depth ≤ D
  | [], _ => ⟨.nil, rfl, .nil, trivial, by simp, fun D _ => by simp [JMems.depth]⟩
  | (k, v) :: kvs, h => by
    obtain ⟨es, h1, h2, h3, h4, h5⟩ := writeKeyed_lay hΔ hr hkt n kvs (fun p hp => h p (by simp [hp]))
    obtain ⟨hk, hv⟩ := h (k, v) (by simp)
    obtain ⟨dk, hdk⟩ := layVal_ok (w := w) n kt k hk
    obtain ⟨d, hd⟩ := layVal_ok (w := w) n ty v hv
    have hrk := layVal_reads hΔ hr n kt k hk hdk
    have hrv := layVal_reads hΔ hr n ty v hv hd
    obtain ⟨nme, rfl⟩ := keyTy_str hkt hrk
    have hwk := layVal_wf hΔ n kt k hk hdk
    refine ⟨.cons (nextMember w n) nme [] (spaceText w) d [] es, ?_, .cons hrk hrv h2,
      ⟨nextMember_ws _ _, by simpa [JVal.WFt] using hwk, ws_empty, spaceText_ws w, layVal_wf hΔ n ty v hv hd, ws_empty, h3⟩, by simp, ?_⟩
    · simp only [writeKeyed, writeVal_text hΔ n kt k hk, writeVal_text hΔ n ty v hv, hdk, hd, h1, Res.ok_bind]
      by_cases hv : kvs.isEmpty = true
      · simp [hv, h4.1 hv, JMems.text1, JMems.text, JVal.text]
      · have : es ≠ .nil := fun h => hv (h4.2 h)
        simp [hv, JMems.text1, mems_text_cons this, JVal.text]
    · intro D hD
      have := layVal_depth n ty v hd
      have := hD (k, v) (by simp)
      have := h5 D (fun p hp => hD p (by simp [hp]))
      simp only [JMems.depth] at *
      omega

theorem toJsonKeyMap_lay {w : WCfg} {Δ : Env} {nm : List Bytes → Bytes → Prop} {ea : Bool} (hΔ : Writable Δ) (hr : Readable nm ea w.tc Δ)
    {kt ty : Ty} (hkt : KeyTy kt) {kvs : List (Val × Val)} (h : HasKeyed Δ ValidUtf8 (Seven w.only7bit) kt ty kvs) :
    ∃ (g : Bytes) (es : JMems), toJsonKeyMap w Δ kt ty kvs = .ok (JVal.obj g es).text ∧ ReadsKeyed Δ nm ea kt ty es kvs ∧
      (JVal.obj g es).WFt w.tc ∧ (es = .nil → IsWs g) ∧ ∀ D, (∀ p ∈ kvs, p.2.depth ≤ D) → (JVal.obj g es).depth ≤ D + 1 := by
  obtain ⟨es, h1, h2, h3, h4, h5⟩ := writeKeyed_lay hΔ hr hkt 1 kvs h
  refine ⟨closing w 0 kvs.isEmpty, es, ?_, h2, ⟨closing_tail _ _ _, h3⟩, fun he => ?_, fun D hD => ?_⟩
  · simp only [toJsonKeyMap, h1, Res.ok_bind, obj_text1]
  · rw [h4.2 he]; exact ws_empty
  · have := h5 D hD
    simp only [JVal.depth]
    omega

/-! ## What is accepted -/

section
variable {cfg : Cfg} (hck : cfg.checked = true)
include hck

/-- The name that a literal is read from. -/
theorem parseLit_name {n : Bytes} {l : LitTy} {k : Bytes} {q : Lit × Bytes} (hn : IsStrBody n)
    (h : parseLit cfg true l ((JVal.str n).text ++ k) = .ok q) : KeyText l n := by
  have hs : (JVal.str n).text ++ k = chQuote :: (n ++ chQuote :: k) := by simp [JVal.text]
  rw [hs] at h
  have start : ∀ {r : Bytes}, skipQuote cfg true (chQuote :: (n ++ chQuote :: k)) = .ok r → r = n ++ chQuote :: k := by
    intro r hr
    have := skipQuote_always hck hr
    simpa using this.symm
  have cancel : ∀ {p r : Bytes}, n ++ chQuote :: k = p ++ r → (∀ c ∈ p, c ≠ chQuote ∧ c ≠ 0x5C) → ∀ {r3 : Bytes}, skipQuote cfg true r = .ok r3 → n = p := by
    intro p r he hp r3 h3
    have h4 := skipQuote_always hck h3
    have h5 : Eats (n ++ chQuote :: k) (chQuote :: r3) := ⟨p, by rw [he, h4], hp⟩
    have h6 := h5.body hn
    rw [h4, h6] at he
    exact List.append_cancel_right he
  have digs : ∀ {bits : Nat} {rc : Bool} {x : Bytes} {q : Nat × Bytes}, unsignedNotKnown cfg bits rc x = .ok q →
      ∃ ds, x = ds ++ q.2 ∧ ∀ c ∈ ds, IsDig c := by
    intro bits rc x q h
    obtain ⟨ds, rest, rfl, h1, h2⟩ := digitsRun_split x
    refine ⟨ds, ?_, h1⟩
    congr 1
    simp only [unsignedNotKnown, notKnownVal_digits ds rest h1 h2] at h
    split at h
    · simp only [Res.bind_eq_ok] at h
      obtain ⟨_, -, _, -, _, -, h⟩ := h
      cases h
      rfl
    · simp only [Res.bind_eq_ok] at h
      obtain ⟨_, -, h⟩ := h
      cases h
      rfl
  have plain : ∀ {ds : Bytes}, (∀ c ∈ ds, IsDig c) → ∀ c ∈ ds, c ≠ chQuote ∧ c ≠ 0x5C := by
    intro ds h c hc
    have := h c hc
    constructor <;> (rintro rfl; revert this; unfold IsDig; decide)
  cases l with
  | bool =>
    simp only [parseLit, parseBoolQ, Res.bind_eq_ok, trim_ck hck, Res.ok.injEq] at h
    obtain ⟨_, ⟨r1, h1, ⟨x, r2⟩, h2, r3, h3, -⟩, -⟩ := h
    obtain rfl := start h1
    simp only [eatBool, hck, if_true] at h2
    split at h2
    · obtain ⟨r, hr⟩ := List.isPrefixOf_iff_prefix.1 ‹_›
      rw [← hr] at h2
      simp only [List.drop_append, Res.ok.injEq, Prod.mk.injEq] at h2
      rw [← h2.2] at h3
      exact Or.inl (cancel hr.symm (by decide) (by simpa using h3))
    · split at h2
      · obtain ⟨r, hr⟩ := List.isPrefixOf_iff_prefix.1 ‹_›
        rw [← hr] at h2
        simp only [List.drop_append, Res.ok.injEq, Prod.mk.injEq] at h2
        rw [← h2.2] at h3
        exact Or.inr (cancel hr.symm (by decide) (by simpa using h3))
      · cases h2
  | int ity rc =>
    simp only [parseLit] at h
    split at h
    · rename_i hsg
      simp only [parseSignedQ, Res.bind_eq_ok, trim_ck hck, Res.ok.injEq] at h
      obtain ⟨_, ⟨r1, h1, ⟨x, r2⟩, h2, ⟨x', r2'⟩, h2', r3, h3, -⟩, -⟩ := h
      obtain rfl := start h1
      obtain ⟨ds, hds, hdig⟩ := digs h2'
      simp only at hds h3
      cases hn0 : n with
      | nil =>
        subst hn0
        simp [validateSignedFirst, hck, isDigit, show ¬ parseDigit 34 < 10 by decide] at h2
      | cons c cs =>
        subst hn0
        simp only [validateSignedFirst, hck, List.cons_append, List.isEmpty_cons, Bool.not_false, assertWeak_tt, Res.ok_bind, deref_cons, if_true,
          List.tail_cons] at h2
        split at h2
        · cases h2
          subst c
          refine ⟨ds, hdig, Or.inr ⟨hsg, ?_⟩⟩
          exact cancel (p := chMinus :: ds) (r := r2') (by simp [hds]) (by
            intro c hc
            rcases List.mem_cons.1 hc with rfl | hc
            · decide
            · exact plain hdig c hc) h3
        · have hr2 : r2 = (c :: cs) ++ chQuote :: k := by
            split at h2
            · cases h2; rfl
            · split at h2
              · rw [Res.bind_eq_ok] at h2
                obtain ⟨_, -, h2⟩ := h2
                cases h2; rfl
              · cases h2
          have := cancel (p := ds) (r := r2') (by rw [← hds, hr2]) (plain hdig) h3
          exact ⟨ds, hdig, Or.inl ⟨this, by rw [← this]; simp⟩⟩
    · simp only [parseUnsignedQ, Res.bind_eq_ok, Res.ok.injEq] at h
      obtain ⟨_, ⟨r1, h1, _, -, _, hdg, ⟨x', r2'⟩, h2', r3, h3, -⟩, -⟩ := h
      obtain rfl := start h1
      obtain ⟨ds, hds, hdig⟩ := digs h2'
      simp only at hds h3
      have := cancel (p := ds) (r := r2') hds (plain hdig) h3
      refine ⟨ds, hdig, Or.inl ⟨this, ?_⟩⟩
      rintro rfl
      subst this
      simp [whenChecked, hck, isDigit, ensure, show ¬ parseDigit 34 < 10 by decide] at hdg

/-- What is accepted in front of the colon. -/
def KeySound (pk : Bytes → Res (Val × Bytes)) (n : Bytes) (K : Val → Prop) : Prop :=
  ∀ pc k v r, IsWs pc → pk ((JVal.str n).text ++ (pc ++ chColon :: k)) = .ok (v, r) → TrimEq r (pc ++ chColon :: k) ∧ K v

theorem keyLoop_sound {pk p : Bytes → Res (Val × Bytes)} {K : Bytes → Val → Prop} {P : JVal → Prop} {tc : Bool} {w k : Bytes} (hw : IsTail tc w)
    (hk : ∀ n, IsStrBody n → (JVal.str n).text.length < 2 ^ 63 → KeySound pk n (K n)) (hs : ∀ x, DOk tc x → SoundU p x (P x)) :
    ∀ (tl : JMems) (pre n pc qc : Bytes) (d : JVal) (post : Bytes) (kvs : List (Val × Val)) (r : Bytes),
      MOk tc (.cons pre n pc qc d post tl) →
      keyLoop cfg pk p (objRest w k (.cons pre n pc qc d post tl)) = .ok (kvs, r) →
      TrimEq r k ∧ List.Forall₂ (fun m kv => K m.1 kv.1 ∧ P m.2) (JMems.cons pre n pc qc d post tl).toList kvs
  | tl, pre, n, pc, qc, d, post, kvs, r, hok, h => by
    obtain ⟨-, hn, hpc, hqc, hd, hpost, htl⟩ := (by simpa only [JMems.WFt] using hok.wf :
      IsWs pre ∧ IsStrBody n ∧ IsWs pc ∧ IsWs qc ∧ d.WFt tc ∧ IsWs post ∧ tl.WFt tc)
    unfold keyLoop at h
    simp only [Res.bind_eq_ok] at h
    obtain ⟨_, -, ⟨ky, b0⟩, hk0, b1, hb1, ⟨v, b⟩, hv, b2, hb2, _, -, c, hc, h⟩ := h
    have hobj : objRest w k (.cons pre n pc qc d post tl)
        = (JVal.str n).text ++ (pc ++ chColon :: (qc ++ (d.text ++ objAfter post tl w k))) := by
      simp [objRest, JVal.text]
    rw [hobj] at hk0
    obtain ⟨hkt, hK⟩ := hk n hn (by
      have := hok.size
      simp only [JMems.text, JVal.text, List.length_cons, List.length_append, List.length_nil] at this ⊢
      omega) _ _ _ _ hpc hk0
    simp only at hb1 hv hb2
    rw [trimEndOfName_te hkt (text_nonsp hd _) hpc hqc, trimChecked_text d hd, Res.ok.injEq] at hb1
    subst hb1
    obtain ⟨htr, hP⟩ := hs d hok.cons.1 _ _ _ (objAfter_after (tl := tl) (k := k) hpost hw) hv
    simp only [moveNext_ck hck, Res.ok.injEq] at hb2
    have hmv : b2 = objRest w k tl := by
      rw [← hb2, moveNextChecked_trimEq htr, moveNext_obj hpost htl hw]
    subst hmv
    match tl, h, hc with
    | .nil, h, hc =>
      simp only [objRest, deref_cons, Res.ok.injEq] at hc
      subst hc
      simp only [if_true, Res.ok.injEq, Prod.mk.injEq, objRest, List.tail_cons] at h
      obtain ⟨rfl, rfl⟩ := h
      exact ⟨trimChecked_te (TrimEq.refl k), .cons ⟨hK, hP⟩ .nil⟩
    | .cons pre' n' pc' qc' d' post' tl', h, hc =>
      simp only [objRest, deref_cons, Res.ok.injEq] at hc
      subst hc
      rw [if_neg (by decide)] at h
      split at h
      · simp only [Res.bind_eq_ok] at h
        obtain ⟨⟨vs', r'⟩, h1, h2⟩ := h
        simp only [Res.ok.injEq, Prod.mk.injEq] at h2
        obtain ⟨ht, hall⟩ := keyLoop_sound hw hk hs tl' pre' n' pc' qc' d' post' vs' r' hok.cons.2.1 h1
        rw [← h2.2, ← h2.1]
        exact ⟨ht, .cons ⟨hK, hP⟩ hall⟩
      · cases h

theorem parseKeyMap_sound {pk p : Bytes → Res (Val × Bytes)} {K : Bytes → Val → Prop} {P : JVal → Prop} {d : JVal} (hd : DOk false d)
    (hk : ∀ n, IsStrBody n → (JVal.str n).text.length < 2 ^ 63 → KeySound pk n (K n)) (hs : ∀ x, DOk false x → SoundU p x (P x))
    {k r : Bytes} {kvs : List (Val × Val)} (h : parseKeyMap cfg pk p (d.text ++ k) = .ok (kvs, r)) :
    TrimEq r k ∧ ∃ w ms, d = .obj w ms ∧ List.Forall₂ (fun m kv => K m.1 kv.1 ∧ P m.2) ms.toList kvs := by
  unfold parseKeyMap at h
  simp only [Res.bind_eq_ok, trim_ck hck, Res.ok.injEq] at h
  obtain ⟨_, hst, b, rfl, _, -, c, hc, h⟩ := h
  obtain ⟨c0, cs0, hc0, -⟩ := text_head d hd.wf
  obtain ⟨w, ms, rfl⟩ : ∃ w es, d = .obj w es := by
    apply starts_object hd.wf hc0
    by_cases hq : c0 = chLBrace
    · exact hq
    · simp [hck, hc0, headIs, ensure, hq] at hst
  have hwf := hd.wf
  simp only [JVal.WFt] at hwf
  match ms, h with
  | .nil, h =>
    have hw : IsWs w := by
      rcases hwf.1 with h | ⟨h, -⟩
      · exact h
      · cases h
    have e1 : trimChecked ((JVal.obj w .nil).text ++ k).tail = chRBrace :: k := by
      simp only [JVal.text, List.cons_append, List.append_assoc, List.tail_cons, List.nil_append]
      rw [trimChecked_ws _ _ hw, trimChecked_cons_of_not _ (by decide)]
    rw [e1] at hc h
    simp only [deref_cons, Res.ok.injEq] at hc
    subst hc
    simp only [if_true, Res.ok.injEq, Prod.mk.injEq, List.tail_cons] at h
    rw [← h.2, ← h.1]
    exact ⟨trimChecked_te (TrimEq.refl k), w, .nil, rfl, by simp [JMems.toList]⟩
  | .cons pre n pc qc x post tl, h =>
    have htl := hwf.2
    simp only [JMems.WFt] at htl
    have e1 : trimChecked ((JVal.obj w (.cons pre n pc qc x post tl)).text ++ k).tail = objRest w k (.cons pre n pc qc x post tl) := by
      rw [obj_text, List.tail_cons, trimChecked_ws _ _ htl.1]
      exact trimChecked_cons_of_not _ (by decide)
    rw [e1] at hc h
    simp only [objRest, deref_cons, Res.ok.injEq] at hc
    subst hc
    rw [if_neg (by decide)] at h
    obtain ⟨ht, hall⟩ := keyLoop_sound hck hwf.1 hk hs tl pre n pc qc x post kvs r hd.mems h
    exact ⟨ht, w, _, rfl, hall⟩

end

/-- Keys. -/
theorem key_sound {t : TCfg} {Δ : Env} {nm : List Bytes → Bytes → Prop} {ea : Bool} (hck : t.cfg.checked = true) (henv : EnvOk Δ)
    (hnm : ∀ N n, nm N n → NameOk t N n ∧ (PlainName n ∨ t.escNames = true)) (hea : ea = t.exactAll) {kt : Ty} (hkt : KeyTy kt) (f : Nat)
    {n : Bytes} (hn : IsStrBody n) (hl : (JVal.str n).text.length < 2 ^ 63) :
    KeySound (parseU t Δ f kt) n fun v => (∀ l, kt = .txt (.quoted true l) → KeyText l n) ∧ ∀ x, Reads Δ nm ea kt (.str n) x → v = x := by
  intro pc k v r hpc h
  cases f with
  | zero => simp [parseU] at h
  | succ f =>
    refine ⟨?_, ?_, fun x hx => ?_⟩
    · have hw : (JVal.str n).WFt false := by simpa [JVal.WFt] using hn
      have hd : DOk false (.str n) := ⟨hw, by simp [JVal.depth], hl⟩
      cases hkt with
      | str =>
        simp only [parseU, Res.bind_eq_ok] at h
        obtain ⟨⟨s, r'⟩, hs, hres⟩ := h
        obtain ⟨rfl, -⟩ := parseStr_sound hw hl hs
        simp only [Res.ok.injEq, Prod.mk.injEq] at hres
        rw [← hres.2]
        exact TrimEq.refl _
      | rawStr =>
        simp only [parseU, parseTxt, Res.bind_eq_ok] at h
        obtain ⟨⟨q, r'⟩, hq, hres⟩ := h
        obtain ⟨rfl, b, -⟩ := skipString_sound hw hl hq
        simp only [Res.ok.injEq, Prod.mk.injEq] at hres
        rw [← hres.2]
        exact TrimEq.refl _
      | date =>
        simp only [parseU, parseTxt, parseDate, Res.bind_eq_ok] at h
        obtain ⟨⟨x, r0⟩, ⟨_, -, ⟨q, r'⟩, hq, y, -, hres'⟩, hres⟩ := h
        obtain ⟨rfl, b, -⟩ := skipString_sound hw hl hq
        simp only [Res.ok.injEq, Prod.mk.injEq] at hres hres'
        rw [← hres.2, ← hres'.2]
        exact TrimEq.refl _
      | custom =>
        simp only [parseU, parseTxt, parseCustom, customText, Res.bind_eq_ok] at h
        obtain ⟨⟨x, r0⟩, ⟨⟨x', r1⟩, ⟨⟨q, r'⟩, hq, hres''⟩, _, hst, hres'⟩, hres⟩ := h
        obtain ⟨rfl, b, -⟩ := skipString_sound hw hl hq
        simp only [Res.ok.injEq, Prod.mk.injEq] at hres hres' hres''
        rw [← hres.2, ← hres'.2, ← hres''.2]
        exact TrimEq.refl _
      | quoted =>
        simp only [parseU, parseTxt, Res.bind_eq_ok] at h
        obtain ⟨q, hq, hres⟩ := h
        simp only [Res.ok.injEq, Prod.mk.injEq] at hres
        rw [← hres.2]
        exact (parseLit_sound hck hd hq).1
    · rintro l rfl
      simp only [parseU, parseTxt, Res.bind_eq_ok] at h
      obtain ⟨q, hq, -⟩ := h
      exact parseLit_name hck hn hq
    · obtain ⟨r', hr', -⟩ := key_sem hck henv hnm hea hkt hx hn hl (f + 1) (by omega) pc k hpc
      rw [hr'] at h
      cases h
      rfl

end Verif
