import Verif.Proofs.Parser
import Verif.Proofs.Encoding
import Verif.Props.Algebra

/-!
# The actions of the parser build the language of the parse tree
-/

namespace Pire

open Pire.Spec

namespace Lex.Res

/-- `r` is a value with property `Q`, or an exception and `may` holds. -/
def Sat {α : Type} (may : Prop) (Q : α → Prop) : Res α → Prop
  | ok a => Q a
  | throws => may
  | bad => False

variable {α β : Type} {may may' : Prop} {Q Q' : α → Prop} {R : β → Prop}

theorem sat_ok {a : α} : (ok a).Sat may Q ↔ Q a := Iff.rfl

theorem sat_pure {a : α} : (pure a : Res α).Sat may Q ↔ Q a := Iff.rfl

theorem Sat.mono {r : Res α} (h : r.Sat may Q) (hm : may → may') (hq : ∀ a, Q a → Q' a) : r.Sat may' Q' := by
  cases r with
  | ok a => exact hq a h
  | throws => exact hm h
  | bad => exact h

theorem Sat.bind {r : Res α} {g : α → Res β} (h : r.Sat may Q) (hg : ∀ a, Q a → (g a).Sat may R) : (r >>= g).Sat may R := by
  cases r with
  | ok a => exact hg a h
  | throws => exact h
  | bad => exact h

end Lex.Res

namespace Parse

open Pire.Lex Pire.Enc Pire.Fsm Pire.Props

/-- The specification of an encoding of the library. -/
def codec : Encoding → Codec
  | .latin1 => .ascii
  | .utf8 => .utf8

/-- What appending to an automaton needs and keeps. -/
structure Appendable (f : Fsm) : Prop where
  good : f.Good
  raw : f.Raw
  isAlt : f.isAlt = false
  determined : f.determined = false

theorem Appendable.init : Appendable Fsm.init := ⟨Good.init, init_raw, rfl, rfl⟩

theorem Appendable.makeFalse : Appendable Fsm.makeFalse := ⟨Good.makeFalse, rfl, rfl, rfl⟩

theorem Appendable.concat {f g : Fsm} (hf : f.Good) (hg : g.Good) : Appendable (f.concat g) :=
  ⟨hf.concat hg, concat_raw hf.wf hf.coh hg.wf hg.coh, (concat_flags f g).1, (concat_flags f g).2⟩

theorem toLocal_eq (e : Encoding) {c : Nat} (h : c < 0x200000) : e.toLocal c = (codec e).enc c := by
  cases e with
  | latin1 => rfl
  | utf8 => exact utf8ToLocal_eq h

theorem enc_bytes (e : Encoding) {c : Nat} (h : c < 0x200000) : ∀ b ∈ (codec e).enc c, b < 256 := by
  cases e with
  | latin1 =>
    intro b hb
    simp only [codec, Codec.ascii] at hb
    split at hb
    · simp only [List.mem_singleton] at hb; omega
    · cases hb
  | utf8 => intro b hb; exact lt_trans (Utf8Char.bytes (utf8_char h) b hb) (by omega)

theorem charsOf_eq (e : Encoding) {cs : Finset Nat} (h : ∀ c ∈ cs, c < 0x200000) :
    (codec e).charsOf cs = oneOf (((elems cs).map e.toLocal).filter (· ≠ [])) := by
  ext w
  change (∃ c ∈ cs, w = (codec e).enc c ∧ w ≠ []) ↔ w ∈ ((elems cs).map e.toLocal).filter (· ≠ [])
  simp only [List.mem_filter, List.mem_map, mem_elems, decide_eq_true_eq]
  constructor
  · rintro ⟨c, hc, rfl, hne⟩; exact ⟨⟨c, hc, toLocal_eq e (h c hc)⟩, hne⟩
  · rintro ⟨⟨c, hc, rfl⟩, hne⟩; exact ⟨c, hc, toLocal_eq e (h c hc), hne⟩

theorem appendRange_sat (e : Encoding) {a : Fsm} (ha : Appendable a) {cs : Finset Nat} (h : ∀ c ∈ cs, c < 0x200000) :
    (appendRange e a cs).Sat False fun g => Appendable g ∧ g.Lang = a.Lang * (codec e).charsOf cs ∧ g.initial ∉ g.finals := by
  unfold appendRange
  rw [charsOf_eq e h]
  dsimp only
  split
  · next h0 =>
    rw [Res.sat_ok, h0]
    refine ⟨.makeFalse, ?_, by simp [Fsm.makeFalse, setFinal, Fsm.init]⟩
    rw [lang_makeFalse]
    have : oneOf [] = 0 := by ext w; exact ⟨(fun h => by cases h), fun h => absurd h (Set.notMem_empty w)⟩
    rw [this, mul_zero]
  · cases hg : a.appendStrings (((elems cs).map e.toLocal).filter (· ≠ [])) with
    | none =>
      have := appendStrings_none.1 hg
      simp at this
    | some g =>
      have hb : ∀ t ∈ ((elems cs).map e.toLocal).filter (· ≠ []), ∀ c ∈ t, c < 256 := by
        intro t ht c hc
        simp only [List.mem_filter, List.mem_map, mem_elems] at ht
        obtain ⟨⟨d, hd, rfl⟩, -⟩ := ht
        rw [toLocal_eq e (h d hd)] at hc
        exact enc_bytes e (h d hd) c hc
      obtain ⟨h1, h2, h3, h4⟩ := appendStrings_spec ha.good.wf ha.raw hb hg
      obtain ⟨h5, h6⟩ := appendStrings_flags ha.isAlt ha.determined hg
      exact ⟨⟨.of_raw h1 h2 (.of_false h5) h6, h2, h5, h6⟩, h3, h4⟩

theorem appendDot_spec (e : Encoding) {a : Fsm} (ha : Appendable a) :
    Appendable (e.appendDot a) ∧ (e.appendDot a).Lang = a.Lang * (codec e).one ∧ (e.appendDot a).initial ∉ (e.appendDot a).finals := by
  cases e with
  | latin1 =>
    change Appendable a.appendDot ∧ _ ∧ _
    refine ⟨⟨ha.good.appendDot ha.raw ha.isAlt, (appendLetters_fields a (List.range 256)).2.2.2.trans ha.raw, ?_,
      appendLetters_determined a _⟩, lang_appendDot ha.good.wf ha.raw, appendDot_initial_not_final ha.good.wf⟩
    rw [Fsm.appendDot]
    generalize List.range 256 = l
    exact foldl_connectFinal_isAlt _ _ ha.isAlt
  | utf8 =>
    obtain ⟨h1, h2, h3, h4, h5, h6, h7, -⟩ := utf8AppendDot_spec ha.good.wf ha.raw ha.isAlt
    refine ⟨⟨utf8AppendDot_good ha.good ha.raw ha.isAlt, h4, h6, h7⟩, lang_utf8AppendDot ha.good.wf ha.raw ha.isAlt, ?_⟩
    change (utf8AppendDot a).initial ∉ (utf8AppendDot a).finals
    rw [h2, h3, Finset.mem_singleton]
    have := ha.good.wf.init_lt
    omega

theorem appendChar_spec {a : Fsm} (ha : Appendable a) {c : Nat} (hc : IsLetter c) :
    (a.appendChar c).Good ∧ (a.appendChar c).Lang = a.Lang * single [c] ∧ (a.appendChar c).initial ∉ (a.appendChar c).finals := by
  refine ⟨.of_raw (ha.good.wf.appendChar hc.1) (ha.raw.appendChar c) (.of_false (appendChar_flags a c).1) (appendChar_flags a c).2,
    lang_appendChar ha.good.wf ha.raw hc.2, ?_⟩
  exact appendStr_initial_not_final ha.good.wf (s := [c]) (by intro x hx; simp only [List.mem_singleton] at hx; rw [hx]; exact hc) (by simp)

theorem complement_determined {f g : Fsm} (h : f.complement = some g) : g.determined = false := by
  rw [complement_eq] at h
  split at h
  · cases h; exact (complementCore_fields _).2.2.2.2
  · cases h

theorem removeDeadEnds_determined (f : Fsm) : f.removeDeadEnds.determined = f.determined := by
  unfold removeDeadEnds
  generalize elems f.deadStates = l
  change (List.foldl removeState f l).determined = _
  induction l generalizing f with
  | nil => rfl
  | cons a l ih => rw [List.foldl_cons, ih]; rfl

theorem good_removeDeadEnds {f : Fsm} (h : f.Good) (hd : f.determined = false) : f.removeDeadEnds.Good := by
  refine ⟨h.wf.removeDeadEnds, h.coh.removeDeadEnds, ?_, .of_false (removeDeadEnds_fields f).2.2.2.2, fun h => ?_⟩
  · intro c r hr p
    rw [(removeDeadEnds_fields f).2.2.2.1] at hr
    have key : ∀ q d, p ∈ f.removeDeadEnds.dst q d ↔ (q ∉ f.deadStates ∧ p ∉ f.deadStates) ∧ p ∈ f.dst q d := by
      intro q d
      rw [dst, dst, removeDeadEnds_tr]
      by_cases hq : q ∈ f.deadStates
      · simp [hq]
      · rw [if_neg hq]
        cases f.tr q d <;> simp [hq, and_comm]
    rcases h.col c r hr p with h0 | h0
    · exact .inl fun q hq => h0 q ((key q c).1 hq).2
    · exact .inr fun q => by rw [key, key, h0]
  · rw [removeDeadEnds_determined, hd] at h; cases h

/-- What a value on the parser stack stands for; `emp`: it may be the empty alternative. -/
def ValSpec (e : Encoding) (L : Language Nat) (emp : Bool) : Val → Prop
  | .fsm f => f.Good ∧ f.Lang = L ∧ (emp = false → f.initial ∉ f.finals)
  | .range cs neg => (∀ c ∈ cs, c < 0x200000) ∧ L = (Term.letters cs neg).den (codec e)
  | .dot => L = (codec e).one
  | .bol => L = single [258]
  | .eol => L = single [259]

/-- Only negated sets need a complement. -/
def Val.plain : Val → Bool
  | .range _ neg => !neg
  | _ => true

theorem letters_one {e : Encoding} : ∀ w ∈ (codec e).one, IsWord w := by
  intro w hw
  cases e with
  | latin1 =>
    obtain ⟨b, hb, rfl⟩ := hw
    intro c hc
    simp only [List.mem_singleton] at hc
    exact ⟨by omega, by omega⟩
  | utf8 =>
    obtain ⟨c, hc⟩ := hw
    intro b hb
    have := Utf8Char.bytes hc b hb
    exact ⟨by omega, by omega⟩

theorem convertToFsm_sat (e : Encoding) {v : Val} {L : Language Nat} {emp : Bool} (h : ValSpec e L emp v) :
    (convertToFsm e v).Sat (v.plain = false) fun f => f.Good ∧ f.Lang = L ∧ (emp = false → f.initial ∉ f.finals) := by
  have one : Fsm.init.Lang = (1 : Language Nat) := lang_init
  cases v with
  | fsm f => exact h
  | dot =>
    have hs := appendDot_spec e Appendable.init
    rw [one, one_mul] at hs
    exact ⟨hs.1.good, hs.2.1.trans h.symm, fun _ => hs.2.2⟩
  | bol =>
    have hs := appendChar_spec (c := 258) Appendable.init ⟨by omega, by omega⟩
    rw [one, one_mul] at hs
    exact ⟨hs.1, hs.2.1.trans h.symm, fun _ => hs.2.2⟩
  | eol =>
    have hs := appendChar_spec (c := 259) Appendable.init ⟨by omega, by omega⟩
    rw [one, one_mul] at hs
    exact ⟨hs.1, hs.2.1.trans h.symm, fun _ => hs.2.2⟩
  | range cs neg =>
    obtain ⟨hb, rfl⟩ := h
    have hr := appendRange_sat e Appendable.init hb
    rw [one, one_mul] at hr
    unfold convertToFsm
    refine (hr.mono (fun h => h.elim) fun _ h => h).bind fun a ha => ?_
    cases neg with
    | false => exact ⟨ha.1.good, ha.2.1, fun _ => ha.2.2⟩
    | true =>
      rw [if_pos rfl]
      have hs := appendDot_spec e Appendable.init
      rw [one, one_mul] at hs
      dsimp only
      cases hx : (e.appendDot Fsm.init).complement with
      | none => exact rfl
      | some x =>
        obtain ⟨x1, x2, -⟩ := complement_spec hs.1.good hx
        have us := union_shape ha.1.good.wf ha.1.good.coh ha.1.good.alt x1.wf x1.coh x1.alt
        change Res.Sat _ _ (Res.bind (lift (a.union x).complement) _)
        cases hy : (a.union x).complement with
        | none => exact rfl
        | some y =>
          obtain ⟨y1, y2, y3⟩ := complement_spec (ha.1.good.union x1) hy
          refine ⟨good_removeDeadEnds y1 (complement_determined hy), ?_, fun _ => ?_⟩
          · rw [lang_removeDeadEnds y1.wf y1.coh, y2, us.lang, ha.2.1, x2, hs.2.1]
            ext w
            change (IsWord w ∧ ¬ (w ∈ (codec e).charsOf cs ∨ (IsWord w ∧ ¬ w ∈ (codec e).one))) ↔ (w ∈ (codec e).one ∧ ¬ w ∈ (codec e).charsOf cs)
            constructor
            · rintro ⟨h1, h2⟩
              exact ⟨by_contra fun h => h2 (.inr ⟨h1, h⟩), fun h => h2 (.inl h)⟩
            · rintro ⟨h1, h2⟩
              exact ⟨letters_one w h1, fun h => h.elim h2 fun h => h.2 h1⟩
          · rw [(removeDeadEnds_fields y).2.1, (removeDeadEnds_fields y).2.2.1]; exact y3

theorem appendIteration_sat (e : Encoding) {a : Fsm} (ha : Appendable a) {v : Val} {L : Language Nat} (h : ValSpec e L false v) :
    (appendIteration e a v).Sat (v.plain = false) fun g => Appendable g ∧ g.Lang = a.Lang * L ∧ g.initial ∉ g.finals := by
  have gen : Res.Sat (v.plain = false) (fun g => Appendable g ∧ g.Lang = a.Lang * L ∧ g.initial ∉ g.finals)
      (do let b ← convertToFsm e v; Res.ok (a.concat b)) := by
    refine (convertToFsm_sat e h).bind fun b hb => ?_
    obtain ⟨b1, b2, b3⟩ := hb
    refine ⟨.concat ha.good b1, ?_, concat_initial_not_final ha.good.wf ha.good.coh b1.wf b1.coh⟩
    rw [lang_concat ha.good.wf ha.good.coh b1.wf b1.coh (b3 rfl), b2]
  cases v with
  | fsm f => exact gen
  | bol => exact gen
  | eol => exact gen
  | dot =>
    obtain ⟨h1, h2, h3⟩ := appendDot_spec e ha
    exact ⟨h1, by rw [h2, ← h], h3⟩
  | range cs neg =>
    cases neg with
    | true => exact gen
    | false =>
      obtain ⟨hb, rfl⟩ := h
      exact (appendRange_sat e ha hb).mono (fun h => h.elim) fun _ h => h

/-! ### Repetition -/

theorem mem_pow_add_one {L : Language Nat} {n : Nat} {w : List Nat} : w ∈ (L + 1) ^ n ↔ ∃ k ≤ n, w ∈ L ^ k := by
  induction n generalizing w with
  | zero => simp
  | succ n ih =>
    rw [pow_succ, mul_add, mul_one]
    change (w ∈ (L + 1) ^ n * L ∨ w ∈ (L + 1) ^ n) ↔ _
    constructor
    · rintro (⟨u, hu, v, hv, rfl⟩ | h)
      · obtain ⟨k, hk, hu⟩ := ih.1 hu
        exact ⟨k + 1, by omega, by rw [pow_succ]; exact ⟨u, hu, v, hv, rfl⟩⟩
      · obtain ⟨k, hk, h⟩ := ih.1 h
        exact ⟨k, by omega, h⟩
    · rintro ⟨k, hk, h⟩
      cases k with
      | zero => exact .inr (ih.2 ⟨0, by omega, h⟩)
      | succ k =>
        rw [pow_succ] at h
        obtain ⟨u, hu, v, hv, rfl⟩ := h
        exact .inl ⟨u, ih.2 ⟨k, by omega, hu⟩, v, hv, rfl⟩

theorem repeated_up_to {L : Language Nat} {lo hi : Nat} (h : lo ≤ hi) : L ^ lo * (L + 1) ^ (hi - lo) = repeated L lo (some hi) := by
  ext w
  constructor
  · rintro ⟨u, hu, v, hv, rfl⟩
    obtain ⟨k, hk, hv⟩ := mem_pow_add_one.1 hv
    refine ⟨lo + k, by omega, fun x hx => by cases hx; omega, ?_⟩
    rw [pow_add]; exact ⟨u, hu, v, hv, rfl⟩
  · rintro ⟨n, h1, h2, hw⟩
    have := h2 _ rfl
    obtain ⟨k, rfl⟩ := Nat.exists_eq_add_of_le h1
    rw [pow_add] at hw
    obtain ⟨u, hu, v, hv, rfl⟩ := hw
    exact ⟨u, hu, v, mem_pow_add_one.2 ⟨k, by omega, hv⟩, rfl⟩

theorem repeated_from {L : Language Nat} {lo : Nat} : L ^ lo * KStar.kstar L = repeated L lo none := by
  rw [Language.kstar_eq_iSup_pow]
  ext w
  constructor
  · rintro ⟨u, hu, v, hv, rfl⟩
    obtain ⟨k, hv⟩ := Set.mem_iUnion.1 hv
    refine ⟨lo + k, by omega, (fun x hx => by cases hx), ?_⟩
    rw [pow_add]; exact ⟨u, hu, v, hv, rfl⟩
  · rintro ⟨n, h1, -, hw⟩
    obtain ⟨k, rfl⟩ := Nat.exists_eq_add_of_le h1
    rw [pow_add] at hw
    obtain ⟨u, hu, v, hv, rfl⟩ := hw
    exact ⟨u, hu, v, Set.mem_iUnion.2 ⟨k, hv⟩, rfl⟩

theorem repeatAction_sat {f : Fsm} {L : Language Nat} {emp : Bool} (h1 : f.Good) (h2 : f.Lang = L)
    (h3 : emp = false → f.initial ∉ f.finals) {lo : Nat} {hi : Option Nat} (hle : ∀ h, hi = some h → lo ≤ h)
    (hemp : emp = true → lo = 0 ∨ (lo = 1 ∧ hi = none)) :
    (repeatAction f lo hi).Sat False fun g => g.Good ∧ g.Lang = repeated L lo hi ∧ ((lo = 0 → hi ≠ some 0) → g.initial ∉ g.finals) := by
  have one : Fsm.init.Lang = (1 : Language Nat) := lang_init
  have us := union_shape h1.wf h1.coh h1.alt Good.init.wf Good.init.coh Good.init.alt
  have ug : (f.union Fsm.init).Good := h1.union Good.init
  have it := lang_iterate h1.wf
  have ig := h1.iterate
  unfold repeatAction
  split
  · next h =>
    obtain ⟨rfl, rfl⟩ := h
    refine ⟨ug, ?_, fun _ => us.init_not_fin⟩
    rw [us.lang, h2, one, ← repeated_up_to (Nat.zero_le 1)]
    simp
  split
  · next h =>
    obtain ⟨rfl, rfl⟩ := h
    refine ⟨ig, ?_, fun _ => iterate_initial_not_final f⟩
    rw [it, h2, ← repeated_from, pow_zero, one_mul]
  split
  · next h =>
    obtain ⟨rfl, rfl⟩ := h
    refine ⟨h1.concat ig, ?_, fun _ => concat_initial_not_final h1.wf h1.coh ig.wf ig.coh⟩
    rw [lang_concat h1.wf h1.coh ig.wf ig.coh (iterate_initial_not_final f), it, h2, ← repeated_from, pow_one]
  next n1 n2 n3 =>
  have hp : (f.power lo).Lang = L ^ lo := by
    rcases Nat.eq_zero_or_pos lo with h0 | h0
    · subst h0; rw [pow_zero]; exact one
    · have : emp = false := by
        cases emp with
        | false => rfl
        | true =>
          rcases hemp rfl with h | h
          · omega
          · exact absurd h n3
      rw [← h2]; exact (power_spec h1.wf h1.coh (h3 this) lo).2.2
  have pg := power_good h1 lo
  dsimp only
  cases hi with
  | none =>
    refine ⟨pg.concat ig, ?_, fun _ => concat_initial_not_final pg.wf pg.coh ig.wf ig.coh⟩
    rw [lang_concat pg.wf pg.coh ig.wf ig.coh (iterate_initial_not_final f), it, hp, h2, repeated_from]
  | some hi =>
    have hle := hle hi rfl
    dsimp only
    split
    · next h =>
      subst h
      refine ⟨pg, ?_, fun h0 => power_initial_not_final h1 fun h => h0 h (by rw [h])⟩
      rw [hp, ← repeated_up_to le_rfl]; simp
    · rw [if_neg (by omega)]
      have wg := power_good ug (hi - lo)
      have wn := power_initial_not_final ug (n := hi - lo) (by omega)
      refine ⟨pg.concat wg, ?_, fun _ => concat_initial_not_final pg.wf pg.coh wg.wf wg.coh⟩
      rw [lang_concat pg.wf pg.coh wg.wf wg.coh wn, hp, (power_spec us.wf us.raw.coh us.init_not_fin (hi - lo)).2.2, us.lang, one, h2,
        repeated_up_to hle]

/-! ### Trees -/

/-- A finished automaton. -/
def FsmSpec (L : Language Nat) (emp : Bool) (f : Fsm) : Prop := f.Good ∧ f.Lang = L ∧ (emp = false → f.initial ∉ f.finals)

theorem inter_spec {f g x : Fsm} (h : f.Good) (h2 : g.Good) (hx : f.inter g = some x) :
    x.Good ∧ x.Lang = inter f.Lang g.Lang ∧ x.initial ∉ x.finals := by
  refine ⟨(C21_operations_preserve_good h h2).2.2.2.2.2.2.2.2.2.2.2.1 x hx, ?_, ?_⟩
  · ext w; rw [C08_intersection h h2 hx]; rfl
  · unfold Fsm.inter at hx
    simp only [Option.bind_eq_bind, Option.bind_eq_some_iff] at hx
    obtain ⟨r, hr, f', hf', hx⟩ := hx
    exact (complement_spec ((complement_spec h hf').1.union (complement_spec h2 hr).1) hx).2.2

mutual
theorem evalAlt_sat (e : Encoding) (a : Alt) (ok : a.Ok) :
    (evalAlt e a).Sat (a.plain = false) (FsmSpec (a.den (codec e)) a.isEmpty) := by
  match a with
  | .one c =>
    rw [evalAlt, Alt.den, Alt.plain]
    rw [Alt.Ok] at ok
    exact evalConj_sat e c ok
  | .or a c =>
    rw [evalAlt, Alt.den, Alt.plain]
    rw [Alt.Ok] at ok
    refine ((evalAlt_sat e a ok.1).mono (fun h => by simp [h]) fun _ h => h).bind fun x hx => ?_
    refine ((evalConj_sat e c ok.2).mono (fun h => by simp [h]) fun _ h => h).bind fun y hy => ?_
    have us := union_shape hx.1.wf hx.1.coh hx.1.alt hy.1.wf hy.1.coh hy.1.alt
    exact ⟨hx.1.union hy.1, by rw [us.lang, hx.2.1, hy.2.1], fun _ => us.init_not_fin⟩
theorem evalConj_sat (e : Encoding) (c : Conj) (ok : c.Ok) :
    (evalConj e c).Sat (c.plain = false) (FsmSpec (c.den (codec e)) c.isEmpty) := by
  match c with
  | .one n =>
    rw [evalConj, Conj.den, Conj.plain]
    rw [Conj.Ok] at ok
    exact evalNeg_sat e n ok
  | .and c n =>
    rw [evalConj, Conj.den, Conj.plain]
    rw [Conj.Ok] at ok
    refine ((evalConj_sat e c ok.1).mono (fun _ => rfl) fun _ h => h).bind fun x hx => ?_
    refine ((evalNeg_sat e n ok.2).mono (fun _ => rfl) fun _ h => h).bind fun y hy => ?_
    cases hz : x.inter y with
    | none => exact rfl
    | some z =>
      obtain ⟨z1, z2, z3⟩ := inter_spec hx.1 hy.1 hz
      exact ⟨z1, by rw [z2, hx.2.1, hy.2.1], fun _ => z3⟩
theorem evalNeg_sat (e : Encoding) (n : Neg) (ok : n.Ok) :
    (evalNeg e n).Sat (n.plain = false) (FsmSpec (n.den (codec e)) n.isEmpty) := by
  match n with
  | .one c =>
    rw [evalNeg, Neg.den, Neg.plain]
    rw [Neg.Ok] at ok
    exact (evalCat_sat e c ok).mono (fun h => h) fun f h => ⟨h.1.good, h.2.1, h.2.2⟩
  | .not c =>
    rw [evalNeg, Neg.den, Neg.plain]
    rw [Neg.Ok] at ok
    refine ((evalCat_sat e c ok).mono (fun _ => rfl) fun _ h => h).bind fun x hx => ?_
    cases hz : x.complement with
    | none => exact rfl
    | some z =>
      obtain ⟨z1, z2, z3⟩ := complement_spec hx.1.good hz
      exact ⟨z1, by rw [z2, hx.2.1], fun _ => z3⟩
theorem evalCat_sat (e : Encoding) (c : Cat) (ok : c.Ok) :
    (evalCat e c).Sat (c.plain = false) fun f => Appendable f ∧ f.Lang = c.den (codec e) ∧ (c.isEmpty = false → f.initial ∉ f.finals) := by
  match c with
  | .nil =>
    rw [evalCat, Cat.den]
    exact ⟨.init, lang_init, fun h => by cases h⟩
  | .snoc c i =>
    rw [evalCat, Cat.den, Cat.plain]
    rw [Cat.Ok] at ok
    refine ((evalCat_sat e c ok.1).mono (fun h => by simp [h]) fun _ h => h).bind fun a ha => ?_
    refine ((evalIter_sat e i ok.2.1).mono (fun h => by simp [h]) fun _ h => h).bind fun v hv => ?_
    rw [ok.2.2] at hv
    refine (appendIteration_sat e ha.1 hv.1).mono (fun h => by simp [hv.2 h]) fun g hg => ?_
    exact ⟨hg.1, by rw [hg.2.1, ha.2.1], fun _ => hg.2.2⟩
theorem evalIter_sat (e : Encoding) (i : Iter) (ok : i.Ok) :
    (evalIter e i).Sat (i.plain = false) fun v => ValSpec e (i.den (codec e)) i.isEmpty v ∧ (v.plain = false → i.plain = false) := by
  match i with
  | .one t =>
    rw [evalIter, Iter.den, Iter.plain]
    rw [Iter.Ok] at ok
    exact evalTerm_sat e t ok
  | .rep t lo hi =>
    rw [evalIter, Iter.den, Iter.plain]
    rw [Iter.Ok] at ok
    refine (evalTerm_sat e t ok.1).bind fun v hv => ?_
    refine ((convertToFsm_sat e hv.1).mono hv.2 fun _ h => h).bind fun f hf => ?_
    refine ((repeatAction_sat hf.1 hf.2.1 hf.2.2 ok.2.1 ok.2.2).mono (fun h => h.elim) fun _ h => h).bind fun g hg => ?_
    refine ⟨⟨hg.1, hg.2.1, fun h => hg.2.2 ?_⟩, fun h => by cases h⟩
    rintro rfl rfl
    simp [Iter.isEmpty] at h
theorem evalTerm_sat (e : Encoding) (t : Term) (ok : t.Ok) :
    (evalTerm e t).Sat (t.plain = false) fun v => ValSpec e (t.den (codec e)) t.isEmpty v ∧ (v.plain = false → t.plain = false) := by
  match t with
  | .letters cs neg =>
    rw [evalTerm, Term.plain]
    rw [Term.Ok] at ok
    exact ⟨⟨ok, rfl⟩, fun h => h⟩
  | .dot => rw [evalTerm, Term.den]; exact ⟨rfl, fun h => by cases h⟩
  | .bol => rw [evalTerm, Term.den]; exact ⟨rfl, fun h => by cases h⟩
  | .eol => rw [evalTerm, Term.den]; exact ⟨rfl, fun h => by cases h⟩
  | .group a =>
    rw [evalTerm, Term.den, Term.plain]
    rw [Term.Ok] at ok
    refine (evalAlt_sat e a ok).bind fun f hf => ?_
    exact ⟨hf, fun h => by cases h⟩
end

end Parse
end Pire
