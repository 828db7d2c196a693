import Verif.Model.LexerSession
import Verif.Props.PatternCases
import Verif.Props.CaptureGroupCases

/-!
# C68: a lexer used for several patterns
-/

namespace Pire.Props

open Pire.Spec Pire.Lex Pire.Parse Pire.Enc Pire.Unidata

/-! ### What a history of uses amounts to -/

/-- The features a lexer has after some uses. -/
def featuresAfter (us : List Use) : List Feature :=
  us.foldl (fun F u => match u with | .add f => addFeature f F | _ => F) defaultFeatures

/-- Its encoding. -/
def encodingAfter (us : List Use) : Encoding :=
  us.foldl (fun e u => match u with | .encoding e' => e' | _ => e) .latin1

theorem use_settings {s s' : Session} {u : Use} {r : Option (Res Fsm)} (h : s.use u = some (s', r)) :
    s'.features = (match u with | .add f => addFeature f s.features | _ => s.features) ∧ s'.enc = (match u with | .encoding e => e | _ => s.enc) := by
  cases u with
  | parse =>
    simp only [Session.use] at h
    cases hi : s.input with
    | none => rw [hi] at h; cases h
    | some p =>
      rw [hi] at h
      dsimp only at h
      cases hp : pull s.features s.enc (p.length + 1) p (VFrame.new, []) <;> rw [hp] at h <;> cases h <;> exact ⟨rfl, rfl⟩
  | _ => cases h; exact ⟨rfl, rfl⟩

theorem uses_cons {s s' : Session} {u : Use} {us : List Use} {rs : List (Res Fsm)} (h : s.uses (u :: us) = some (s', rs)) :
    ∃ s1 r rs', s.use u = some (s1, r) ∧ s1.uses us = some (s', rs') ∧ rs = r.toList ++ rs' := by
  rw [Session.uses] at h
  obtain ⟨⟨s1, r⟩, h1, h⟩ := Option.bind_eq_some_iff.1 h
  obtain ⟨⟨s2, rs'⟩, h2, h⟩ := Option.map_eq_some_iff.1 h
  cases h
  exact ⟨s1, r, rs', h1, h2, rfl⟩

theorem uses_settings : ∀ (us : List Use) {s s' : Session} {rs : List (Res Fsm)}, s.uses us = some (s', rs) →
    s'.features = us.foldl (fun F u => match u with | .add f => addFeature f F | _ => F) s.features ∧
    s'.enc = us.foldl (fun e u => match u with | .encoding e' => e' | _ => e) s.enc := by
  intro us
  induction us with
  | nil => intro s s' rs h; cases h; exact ⟨rfl, rfl⟩
  | cons u us ih =>
    intro s s' rs h
    obtain ⟨s1, r, rs', h1, h2, -⟩ := uses_cons h
    have a := use_settings h1
    have b := ih h2
    rw [List.foldl_cons, List.foldl_cons, b.1, b.2, a.1, a.2]
    cases u <;> exact ⟨rfl, rfl⟩

/-- A lexer whose message is empty makes of a pattern what a new one makes of it, whatever it has been used for before. -/
theorem C68_reuse {us : List Use} {s : Session} {rs : List (Res Fsm)} (h : Session.new.uses us = some (s, rs)) (he : s.err = false) (p : List Nat) :
    ∃ s', s.uses [.assign p, .parse] = some (s', [parsePattern (featuresAfter us) (encodingAfter us) p]) := by
  have hs := uses_settings us h
  rw [show featuresAfter us = s.features from hs.1.symm, show encodingAfter us = s.enc from hs.2.symm]
  unfold parsePattern
  simp only [Session.uses, Session.use, Option.bind_some, Option.map_some, he]
  cases pull s.features s.enc (p.length + 1) p (VFrame.new, []) <;> exact ⟨_, rfl⟩

/-! ### The message -/

/-- The message stays as it is when all of a pattern can be read as tokens, even if it is not accepted. -/
theorem C68_syntax_error_forgotten {s s' : Session} {p : List Nat} {ts : List Tok} (ht : tokens s.features (p.length + 1) p = .ok ts) {rs : List (Res Fsm)}
    (h : s.uses [.assign p, .parse] = some (s', rs)) : s'.err = s.err := by
  simp only [Session.uses, Session.use, Option.bind_some] at h
  have h1 := tokens_stops s.features (p.length + 1) p
  rw [ht] at h1
  obtain ⟨-, r, h3⟩ := h1
  rw [pull_eq, h3] at h
  cases hv : vrun s.enc (VFrame.new, []) (tokensRead s.features (p.length + 1) p) with
  | bad => rw [hv] at h; cases h; rfl
  | throws => rw [hv] at h; cases h; exact Bool.or_false _
  | ok v =>
    rw [hv] at h
    simp only [conclude] at h
    cases hf : finish s.enc v <;> rw [hf] at h <;> cases h
    · rfl
    · exact Bool.or_false _
    · rfl

/-- After an error of the lexer - the tokens before it being the beginning of some pattern without `~`, `&`, `[^...]` - there is a message. -/
theorem C68_lexical_error_sticks {o : Options} {s s' : Session} (hF : s.features = o.features) {p rest : List Nat} {ts : List Tok} (hp : Pattern o.flavor p ts)
    {t : Alt} (ht : t.spell = ts) (ok : t.Ok) (pl : t.plain = true) (hr : Tame rest) (hx : lex o.features rest = .throws) {rs : List (Res Fsm)}
    (h : s.uses [.assign (p ++ rest), .parse] = some (s', rs)) : s'.err = true ∧ rs = [.throws] := by
  have hl : ts.length < (p ++ rest).length + 1 := by have := pattern_length hp; simp; omega
  have h1 := tokens_stops o.features ((p ++ rest).length + 1) (p ++ rest)
  rw [error_after o.implements hp hr hx hl] at h1
  dsimp only at h1
  have h2 := read_before_error o.implements hp hr hx hl
  simp only [Session.uses, Session.use, Option.bind_some, hF] at h
  rw [pull_eq, h1, h2] at h
  have h3 := vrun_parse s.enc ((parse_iff (ts := ts) (a := t)).2 ht)
  have h4 := evalAlt_sat s.enc t ok
  cases hv : vrun s.enc (VFrame.new, []) ts with
  | ok v =>
    rw [hv] at h
    cases h
    exact ⟨Bool.or_true _, rfl⟩
  | throws => rw [hv] at h3; rw [← h3] at h4; exact absurd h4 (by rw [pl]; exact Bool.noConfusion)
  | bad => rw [hv] at h3; rw [← h3] at h4; exact h4.elim

theorem use_err {s s' : Session} {u : Use} {r : Option (Res Fsm)} (h : s.use u = some (s', r)) (he : s.err = true) (hu : u ≠ .errMsg false) :
    s'.err = true ∧ ∀ f, r ≠ some (.ok f) := by
  cases u with
  | parse =>
    simp only [Session.use] at h
    cases hi : s.input with
    | none => rw [hi] at h; cases h
    | some p =>
      rw [hi] at h
      dsimp only at h
      cases hp : pull s.features s.enc (p.length + 1) p (VFrame.new, []) with
      | done f rest => rw [hp, he] at h; cases h; exact ⟨rfl, fun f h => by cases h⟩
      | failed b => rw [hp, he] at h; cases h; exact ⟨rfl, fun f h => by cases h⟩
      | bad => rw [hp] at h; cases h; exact ⟨he, fun f h => by cases h⟩
  | errMsg b =>
    cases b with
    | false => exact absurd rfl hu
    | true => cases h; exact ⟨rfl, fun f h => by cases h⟩
  | _ => cases h; exact ⟨he, fun f h => by cases h⟩

/-- **The defect.** With a message in it a lexer accepts no pattern any more, whatever is done with it, until the message is cleared by hand. -/
theorem C68_message_rejects_all : ∀ (us : List Use) {s s' : Session} {rs : List (Res Fsm)}, s.err = true → Use.errMsg false ∉ us → s.uses us = some (s', rs) →
    s'.err = true ∧ ∀ f, Res.ok f ∉ rs := by
  intro us
  induction us with
  | nil => intro s s' rs he _ h; cases h; exact ⟨he, fun f h => by cases h⟩
  | cons u us ih =>
    intro s s' rs he hu h
    obtain ⟨s1, r, rs', h1, h2, rfl⟩ := uses_cons h
    have a := use_err h1 he (fun h => hu (by rw [h]; exact List.mem_cons_self))
    have b := ih a.1 (fun h => hu (List.mem_cons_of_mem _ h)) h2
    refine ⟨b.1, fun f hf => ?_⟩
    rcases List.mem_append.1 hf with hf | hf
    · cases r with
      | none => cases hf
      | some r =>
        simp only [Option.toList_some, List.mem_singleton] at hf
        exact a.2 f (by rw [hf])
    · exact b.2 f hf

/-- Such a lexer: a new one that has been given `a[`. It then rejects `b`, which a new one accepts; with the message cleared it accepts it again. -/
theorem C68_witness : ∃ f, parsePattern defaultFeatures .latin1 [98] = .ok f ∧ f.Lang = {[98]} ∧
    (∃ s, Session.new.uses [.assign [97, 91], .parse, .assign [98], .parse] = some (s, [.throws, .throws])) ∧
    ∃ s, Session.new.uses [.assign [97, 91], .parse, .errMsg false, .assign [98], .parse] = some (s, [.throws, .ok f]) := by
  have hb : ∀ c, 97 ≤ c → c ≤ 122 → Pattern noOptions.flavor [c] [.letters {c} false] := by
    intro c h1 h2
    rw [noOptions_flavor]
    have := Written.plain (fl := Flavor.default) (c := c) (by simp [Flavor.special, Flavor.default]; omega) (by unfold Usable Reserved; omega)
    rw [default_letters] at this
    exact Pattern.cons this .nil
  have hok : ∀ c, c < 0x200000 → (setTree {c} false).Ok := fun c h => ⟨trivial, (by intro x hx; rw [Finset.mem_singleton.1 hx]; omega), rfl⟩
  obtain ⟨f, h1, -, h3⟩ := C43_plain_pattern_language (o := noOptions) (hb 98 (by omega) (by omega)) (t := setTree {98} false) rfl (hok 98 (by omega)) rfl .latin1
  have hlang : f.Lang = {[98]} := by
    rw [h3, setTree_den]
    ext w
    constructor
    · rintro ⟨c, hc, rfl, -⟩; rw [Finset.mem_singleton.1 hc]; rfl
    · intro h; rw [Set.mem_singleton_iff.1 h]; exact ⟨98, Finset.mem_singleton_self _, rfl, by decide⟩
  have hx : lex noOptions.features [91] = .throws := by decide +kernel
  have hu : ∃ s rs, Session.new.uses [.assign [97, 91], .parse] = some (s, rs) := by
    simp only [Session.uses, Session.use, Option.bind_some, Session.new]
    cases pull defaultFeatures .latin1 ([97, 91].length + 1) [97, 91] (VFrame.new, []) <;> exact ⟨_, _, rfl⟩
  obtain ⟨s, rs, hs⟩ := hu
  obtain ⟨he, rfl⟩ := C68_lexical_error_sticks (o := noOptions) (s := Session.new) rfl (hb 97 (by omega) (by omega)) (t := setTree {97} false) (rest := [91]) rfl
    (hok 97 (by omega)) rfl (.plain (by omega) (by decide)) hx hs
  have hset := uses_settings _ hs
  have hF : s.features = defaultFeatures := hset.1
  have hE : s.enc = .latin1 := hset.2
  have chain : ∀ us, Session.new.uses (.assign [97, 91] :: .parse :: us) = (s.uses us).map fun y => (y.1, .throws :: y.2) := by
    intro us
    obtain ⟨s1, r, rs', a1, a2, a3⟩ := uses_cons hs
    obtain ⟨s2, r2, rs2, b1, b2, b3⟩ := uses_cons a2
    cases b2
    cases a1
    cases b3
    simp only [Option.toList_none, List.nil_append, List.append_nil] at a3
    have e1 : ∀ (x : Session) (u : Use) (us : List Use), x.uses (u :: us) = (x.use u).bind fun x => (x.1.uses us).map fun y => (y.1, x.2.toList ++ y.2) :=
      fun _ _ _ => rfl
    rw [e1, show Session.new.use (.assign [97, 91]) = some ({ Session.new with input := some [97, 91] }, none) from rfl, Option.bind_some, e1, b1, Option.bind_some,
      ← a3]
    cases s.uses us <;> rfl
  have hp : ∃ r, pull defaultFeatures .latin1 ([98].length + 1) [98] (VFrame.new, []) = .done f r := by
    have h1 : parsePattern defaultFeatures .latin1 [98] = .ok f := h1
    unfold parsePattern at h1
    cases hp : pull defaultFeatures .latin1 ([98].length + 1) [98] (VFrame.new, []) with
    | done g r => rw [hp] at h1; cases h1; exact ⟨r, rfl⟩
    | failed b => rw [hp] at h1; cases h1
    | bad => rw [hp] at h1; cases h1
  obtain ⟨r, hp⟩ := hp
  refine ⟨f, h1, hlang, ?_, ?_⟩
  · rw [chain]
    simp only [Session.uses, Session.use, Option.bind_some, hF, hE, hp, he]
    exact ⟨_, rfl⟩
  · rw [chain]
    simp only [Session.uses, Session.use, Option.bind_some, hF, hE, hp]
    exact ⟨_, rfl⟩

/-! ### Parsing again without a new pattern -/

theorem pattern_stops {F : List Feature} {fl : Flavor} (hi : Implements F fl) {s : List Nat} {ts : List Tok} (h : Pattern fl s ts) :
    ∀ (fuel : Nat) (s' : List Nat), ts.length < fuel → Same s' s → stops F fuel s' = .eof [] := by
  induction h with
  | nil =>
    intro fuel s' hf hs
    obtain ⟨fuel, rfl⟩ := Nat.exists_eq_succ_of_ne_zero (show fuel ≠ 0 by omega)
    rcases hs with rfl | ⟨ch, s, -, h, -⟩
    · rfl
    · cases h
  | @cons t tok s ts h hp ih =>
    intro fuel s' hf hs
    obtain ⟨fuel, rfl⟩ := Nat.exists_eq_succ_of_ne_zero (show fuel ≠ 0 by omega)
    obtain ⟨r', e1, e2⟩ := written_lex hi h (pattern_tame hp)
    rw [Nat.succ_eq_add_one, stops, lex_same hs, e2]
    exact ih fuel r' (by simp at hf; omega) e1

/-- `Parse` called twice for one pattern: the second call finds nothing left and returns an automaton for the empty text. -/
theorem C68_parsed_twice {o : Options} {s : Session} (hF : s.features = o.features) (he : s.err = false) {p : List Nat} {ts : List Tok} (hp : Pattern o.flavor p ts)
    {t : Alt} (ht : t.spell = ts) (ok : t.Ok) (pl : t.plain = true) :
    ∃ s' f g, s.uses [.assign p, .parse, .parse] = some (s', [.ok f, .ok g]) ∧ f.Lang = t.den (codec s.enc) ∧ g.Lang = 1 := by
  obtain ⟨f, h1, -, h2⟩ := C43_plain_pattern_language hp ht ok pl s.enc
  obtain ⟨g, h3, -, h4⟩ := C43_plain_pattern_language (o := o) (s := []) (ts := []) .nil (t := .one (.one (.one .nil))) rfl trivial rfl s.enc
  have hd : ∀ {q : List Nat} {x : Fsm} {us : List Tok}, Pattern o.flavor q us → parsePattern o.features s.enc q = .ok x →
      pull o.features s.enc (q.length + 1) q (VFrame.new, []) = .done x [] := by
    intro q x us hq hx
    unfold parsePattern at hx
    rw [pull_eq, pattern_stops o.implements hq _ _ (by have := pattern_length hq; omega) (.refl _)] at hx ⊢
    cases hv : vrun s.enc (VFrame.new, []) (tokensRead o.features (q.length + 1) q) with
    | bad => rw [hv] at hx; cases hx
    | throws => rw [hv] at hx; cases hx
    | ok v =>
      rw [hv] at hx
      simp only [conclude] at hx ⊢
      cases hf : finish s.enc v with
      | bad => rw [hf] at hx; cases hx
      | throws => rw [hf] at hx; cases hx
      | ok y => rw [hf] at hx; cases hx; rfl
  have a := hd hp h1
  have b := hd .nil h3
  simp only [Session.uses, Session.use, Option.bind_some, Option.map_some, hF, he, a, b]
  exact ⟨_, f, g, rfl, h2, h4⟩

/-! ### The capture feature -/

open Capture

/-- Fields with which no group is captured. -/
def Inert (s : Fields) : Prop := s.rep = none ∧ (s.state = 2 ∨ (s.state = 0 ∧ s.pos = 0))

theorem Inert.opened {s : Fields} (h : Inert s) : s.opened = s := by
  obtain ⟨st, pos, l, r⟩ := s
  obtain ⟨-, h | ⟨h, h'⟩⟩ := h
  · simp only at h; subst h; rfl
  · simp only at h h'; subst h; subst h'; rfl

theorem Inert.closed {s : Fields} (h : Inert s) (f : Fsm) : s.parenthesized f = (f, s) := by
  obtain ⟨st, pos, l, r⟩ := s
  obtain ⟨h0, h | ⟨h, h'⟩⟩ := h
  · simp only at h h0; subst h; subst h0; rfl
  · simp only at h h' h0; subst h; subst h'; subst h0; rfl

theorem Inert.counted {s : Fields} (h : Inert s) (lz : Bool) (f : Fsm) : (s.counted lz).parenthesized f = (setRepetitionMark f !lz, s) := by
  obtain ⟨st, pos, l, r⟩ := s
  obtain ⟨h0, -⟩ := h
  simp only at h0; subst h0; rfl

/-- The fields put to a result. -/
def withFields (s : Fields) {α : Type} : Res (α × List Bool) → Res (α × Drive)
  | .ok r => .ok (r.1, s, r.2)
  | .throws => .throws
  | .bad => .bad

mutual
theorem evalAlt_inert (e : Encoding) (a : Alt) (l : List Bool) : ∃ R, ∀ s, Inert s → Capture.evalAlt e a (s, l) = withFields s R := by
  match a with
  | .one c =>
    obtain ⟨R, h⟩ := evalConj_inert e c l
    exact ⟨R, fun s hs => by rw [Capture.evalAlt]; exact h s hs⟩
  | .or a c =>
    obtain ⟨R, h⟩ := evalAlt_inert e a l
    match R with
    | .throws => exact ⟨.throws, fun s hs => by rw [Capture.evalAlt, h s hs]; rfl⟩
    | .bad => exact ⟨.bad, fun s hs => by rw [Capture.evalAlt, h s hs]; rfl⟩
    | .ok (x, l1) =>
      obtain ⟨R2, h2⟩ := evalConj_inert e c l1
      refine ⟨R2 >>= fun r => .ok (x.union r.1, r.2), fun s hs => ?_⟩
      rw [Capture.evalAlt, h s hs]
      simp only [withFields, ok_bind]
      rw [h2 s hs]
      cases R2 <;> rfl
theorem evalConj_inert (e : Encoding) (c : Conj) (l : List Bool) : ∃ R, ∀ s, Inert s → Capture.evalConj e c (s, l) = withFields s R := by
  match c with
  | .one n =>
    obtain ⟨R, h⟩ := evalNeg_inert e n l
    exact ⟨R, fun s hs => by rw [Capture.evalConj]; exact h s hs⟩
  | .and c n =>
    obtain ⟨R, h⟩ := evalConj_inert e c l
    match R with
    | .throws => exact ⟨.throws, fun s hs => by rw [Capture.evalConj, h s hs]; rfl⟩
    | .bad => exact ⟨.bad, fun s hs => by rw [Capture.evalConj, h s hs]; rfl⟩
    | .ok (x, l1) =>
      obtain ⟨R2, h2⟩ := evalNeg_inert e n l1
      refine ⟨R2 >>= fun r => lift (x.inter r.1) >>= fun z => .ok (z, r.2), fun s hs => ?_⟩
      rw [Capture.evalConj, h s hs]
      simp only [withFields, ok_bind]
      rw [h2 s hs]
      cases R2 with
      | ok r => simp only [withFields, ok_bind]; cases lift (x.inter r.1) <;> rfl
      | throws => rfl
      | bad => rfl
theorem evalNeg_inert (e : Encoding) (n : Neg) (l : List Bool) : ∃ R, ∀ s, Inert s → Capture.evalNeg e n (s, l) = withFields s R := by
  match n with
  | .one c =>
    obtain ⟨R, h⟩ := evalCat_inert e c l
    exact ⟨R, fun s hs => by rw [Capture.evalNeg]; exact h s hs⟩
  | .not c =>
    obtain ⟨R, h⟩ := evalCat_inert e c l
    refine ⟨R >>= fun r => lift r.1.complement >>= fun z => .ok (z, r.2), fun s hs => ?_⟩
    rw [Capture.evalNeg, h s hs]
    cases R with
    | ok r => simp only [withFields, ok_bind]; cases lift r.1.complement <;> rfl
    | throws => rfl
    | bad => rfl
theorem evalCat_inert (e : Encoding) (c : Cat) (l : List Bool) : ∃ R, ∀ s, Inert s → Capture.evalCat e c (s, l) = withFields s R := by
  match c with
  | .nil => exact ⟨.ok (Fsm.init, l), fun s hs => by rw [Capture.evalCat]; rfl⟩
  | .snoc c i =>
    obtain ⟨R, h⟩ := evalCat_inert e c l
    match R with
    | .throws => exact ⟨.throws, fun s hs => by rw [Capture.evalCat, h s hs]; rfl⟩
    | .bad => exact ⟨.bad, fun s hs => by rw [Capture.evalCat, h s hs]; rfl⟩
    | .ok (x, l1) =>
      obtain ⟨R2, h2⟩ := evalIter_inert e i l1
      refine ⟨R2 >>= fun r => appendIteration e x r.1 >>= fun z => .ok (z, r.2), fun s hs => ?_⟩
      rw [Capture.evalCat, h s hs]
      simp only [withFields, ok_bind]
      rw [h2 s hs]
      cases R2 with
      | ok r => simp only [withFields, ok_bind]; cases appendIteration e x r.1 <;> rfl
      | throws => rfl
      | bad => rfl
theorem evalIter_inert (e : Encoding) (i : Iter) (l : List Bool) : ∃ R, ∀ s, Inert s → Capture.evalIter e i (s, l) = withFields s R := by
  match i with
  | .one t =>
    obtain ⟨R, h⟩ := evalTerm_inert e t l
    exact ⟨R, fun s hs => by rw [Capture.evalIter]; exact h s hs⟩
  | .rep t lo hi =>
    obtain ⟨R, h⟩ := evalTerm_inert e t l
    refine ⟨R >>= fun r => convertToFsm e r.1 >>= fun o => repeatAction o lo hi >>= fun f =>
      match r.2 with | [] => .bad | lz :: lzs => .ok (.fsm (setRepetitionMark f !lz), lzs), fun s hs => ?_⟩
    rw [Capture.evalIter, h s hs]
    cases R with
    | throws => rfl
    | bad => rfl
    | ok r =>
      simp only [withFields, ok_bind]
      cases convertToFsm e r.1 with
      | throws => rfl
      | bad => rfl
      | ok o =>
        simp only [ok_bind]
        cases repeatAction o lo hi with
        | throws => rfl
        | bad => rfl
        | ok f =>
          simp only [ok_bind]
          cases r.2 with
          | nil => rfl
          | cons lz lzs =>
            dsimp only
            rw [hs.counted]
theorem evalTerm_inert (e : Encoding) (t : Term) (l : List Bool) : ∃ R, ∀ s, Inert s → Capture.evalTerm e t (s, l) = withFields s R := by
  match t with
  | .letters cs neg => exact ⟨.ok (_, l), fun s hs => by rw [Capture.evalTerm]; rfl⟩
  | .dot => exact ⟨.ok (_, l), fun s hs => by rw [Capture.evalTerm]; rfl⟩
  | .bol => exact ⟨.ok (_, l), fun s hs => by rw [Capture.evalTerm]; rfl⟩
  | .eol => exact ⟨.ok (_, l), fun s hs => by rw [Capture.evalTerm]; rfl⟩
  | .group a =>
    obtain ⟨R, h⟩ := evalAlt_inert e a l
    refine ⟨R >>= fun r => .ok (.fsm r.1, r.2), fun s hs => ?_⟩
    rw [Capture.evalTerm]
    dsimp only
    rw [hs.opened, h s hs]
    cases R with
    | ok r => simp only [withFields, ok_bind]; rw [hs.closed]
    | throws => rfl
    | bad => rfl
end

/-- With fields that capture nothing a pattern is read as by a lexer that captures nothing. -/
theorem parseFrom_inert {F : List Feature} {e : Encoding} {s : Fields} (hs : Inert s) (p : List Nat) :
    (parseFrom F e s p >>= fun r => .ok r.1) = parseCapture F e 0 p := by
  unfold parseFrom parseCapture
  cases tokensC F (p.length + 1) p with
  | throws => rfl
  | bad => rfl
  | ok r =>
    simp only [ok_bind]
    cases parse r.1 with
    | none => rfl
    | some t =>
      dsimp only
      obtain ⟨R, h⟩ := evalAlt_inert e t r.2
      rw [h s hs, h (Fields.start 0) ⟨rfl, .inr ⟨rfl, rfl⟩⟩]
      cases R <;> rfl

/-- **The other defect.** The fields of the capture feature are not reset: a lexer that is to capture group `k` and has read a pattern with `n` groups captures
group `k - n` of the next pattern (with the natural subtraction: no group if `k ≤ n`). -/
theorem C68_capture_shifts {o : Options} {e : Encoding} {k : Nat} {p q : List Nat} {t : Alt} (h : Stands o p t) (ok : t.Ok) (hs : t.simple = true) {f : Fsm}
    {s' : Fields} (hp : parseFrom o.features e (Fields.start k) p = .ok (f, s')) :
    parseCapture o.features e k p = .ok f ∧ (parseFrom o.features e s' q >>= fun r => .ok r.1) = parseCapture o.features e (k - t.groups) q := by
  obtain ⟨lz, h⟩ := h
  have hc : t.counts ≤ lz.length := by rw [← cpattern_counts h, Alt.spell_counts]
  have h1 := evalAlt_marked e t ok hs (Fields.start k) rfl lz hc
  have e1 : parseFrom o.features e (Fields.start k) p = (Capture.evalAlt e t (Fields.start k, lz) >>= fun r => .ok (r.1, r.2.1)) := by
    unfold parseFrom
    rw [C58_tokens h, ok_bind]
    dsimp only
    rw [(parse_iff (ts := t.spell) (a := t)).2 rfl]
  have e2 : parseCapture o.features e k p = (Capture.evalAlt e t (Fields.start k, lz) >>= fun r => .ok r.1) := by
    unfold parseCapture
    rw [C58_tokens h, ok_bind]
    dsimp only
    rw [(parse_iff (ts := t.spell) (a := t)).2 rfl]
  rw [e2]
  rw [e1] at hp
  cases hr : Capture.evalAlt e t (Fields.start k, lz) with
  | throws => rw [hr] at hp; cases hp
  | bad => rw [hr] at hp; cases hp
  | ok r =>
    rw [hr] at hp h1
    cases hp
    refine ⟨rfl, ?_⟩
    have h2 : r.2.1 = (Fields.start k).after t.groups := by rw [h1.2.2.2]
    rw [h2]
    unfold Fields.start
    rcases Nat.eq_zero_or_pos k with rfl | hk
    · rw [after_none, Nat.zero_sub]
      exact parseFrom_inert ⟨rfl, .inr ⟨rfl, rfl⟩⟩ q
    · by_cases hg : k ≤ t.groups
      · rw [after_done _ _ hk hg, Nat.sub_eq_zero_of_le hg]
        exact parseFrom_inert ⟨rfl, .inl rfl⟩ q
      · rw [after_less _ _ (by omega)]
        unfold parseFrom parseCapture
        cases tokensC o.features (q.length + 1) q with
        | throws => rfl
        | bad => rfl
        | ok r =>
          simp only [ok_bind]
          cases parse r.1 with
          | none => rfl
          | some t' =>
            dsimp only [Fields.start]
            cases Capture.evalAlt e t' (⟨0, k - t.groups, 0, none⟩, r.2) <;> rfl

theorem ok_of_fst {α β : Type} {x : Res (α × β)} {a : α} (h : (x >>= fun r => .ok r.1) = .ok a) : ∃ b, x = .ok (a, b) := by
  cases x with
  | ok r => cases h; exact ⟨r.2, rfl⟩
  | throws => cases h
  | bad => cases h

theorem parseFrom_start {F : List Feature} {e : Encoding} {k : Nat} (p : List Nat) :
    (parseFrom F e (Fields.start k) p >>= fun r => .ok r.1) = parseCapture F e k p := by
  unfold parseFrom parseCapture
  cases tokensC F (p.length + 1) p with
  | throws => rfl
  | bad => rfl
  | ok r =>
    simp only [ok_bind]
    cases parse r.1 with
    | none => rfl
    | some t =>
      dsimp only
      cases Capture.evalAlt e t (Fields.start k, r.2) <;> rfl

theorem lazy_searches {g : Fsm} (hg : parseCapture noOptions.features .latin1 0 lazyText = .ok g) : Searches noOptions .latin1 lazyText 0 lazyTree g g.surround := by
  refine ⟨lazy_stands, lazy_ok, rfl, hg, .inr rfl, ?_⟩
  have hs : parsedSize 0 lazyText ≤ 100 := by decide +kernel
  have hs' := parsedSize_eq hg
  unfold Fsm.surround
  rw [Fsm.appendAnything_size, Fsm.prependAnything_size, ← hs']
  exact le_trans (Nat.add_le_add_right (Nat.add_le_add_right hs 1) 1) (by norm_num)

/-- For instance: a lexer that is to capture group 1 reads the same pattern twice. The first automaton captures what is in the parentheses of it, a search with the
second one never captures anything. -/
theorem C68_capture_witness : ∃ f s', parseFrom noOptions.features .latin1 (Fields.start 1) lazyText = .ok (f, s') ∧ Searches noOptions .latin1 lazyText 1 lazyTree f f.surround ∧
    ∃ g s'', parseFrom noOptions.features .latin1 s' lazyText = .ok (g, s'') ∧ Searches noOptions .latin1 lazyText 0 lazyTree g g.surround ∧
      ∀ w : List Nat, IsWord w → w.length < npos → ∃ st r, (slowCompile g.surround).run w = some st ∧ (slowCompile g.surround).getCapture st = some r ∧
        ∀ x, r.2 = some x → opt x.beg = none ∧ opt x.fin = none := by
  obtain ⟨f, S, -⟩ := C58_case
  obtain ⟨s', h1⟩ := ok_of_fst ((parseFrom_start lazyText).trans S.parsed)
  obtain ⟨-, h3⟩ := C68_capture_shifts (q := lazyText) lazy_stands lazy_ok rfl h1
  rcases C58_language lazy_stands lazy_ok rfl .latin1 0 with ⟨g, hg, -⟩ | ⟨h, -⟩
  · obtain ⟨s'', h4⟩ := ok_of_fst (h3.trans hg)
    exact ⟨f, s', h1, S, g, s'', h4, lazy_searches hg, fun w hw hl => C58_no_group (lazy_searches hg) (.inl rfl) hw hl⟩
  · cases h

end Pire.Props
