import Verif.Props.CaptureGroup
import Verif.Props.PatternCases

/-!
# C58: cases, and what goes wrong
-/

namespace Pire
namespace Props

open Spec Pire.Lex Parse Enc Unidata Loaded Capture

/-- A letter. -/
def ch (c : Nat) : Iter := .one (.letters {c} false)

/-- One after another. -/
def wrap (c : Cat) : Alt := .one (.one (.one c))

theorem written_letter {c : Nat} (h1 : 97 ≤ c) (h2 : c ≤ 122) : Written Flavor.default [c] (.letters {c} false) := by
  have := Written.plain (fl := Flavor.default) (c := c) (by simp [Flavor.special, Flavor.default]; omega) (by unfold Usable Reserved; omega)
  rwa [default_letters] at this

theorem ch_ok {c : Nat} (h : c ≤ 122) : (ch c).Ok := by
  intro x hx
  rw [Finset.mem_singleton.1 hx]; omega

theorem ch_den {c : Nat} (h : c ≤ 122) : (ch c).den Codec.ascii = single [c] := by
  ext w
  show (∃ x ∈ ({c} : Finset Nat), w = Codec.ascii.enc x ∧ w ≠ []) ↔ w = [c]
  have e : Codec.ascii.enc c = [c] := if_pos (by omega)
  constructor
  · rintro ⟨x, hx, rfl, -⟩
    rw [Finset.mem_singleton.1 hx, e]
  · rintro rfl
    exact ⟨c, by simp, e.symm, by simp⟩

/-- `x(a*?)b` -/
def lazyTree : Alt := wrap (.snoc (.snoc (.snoc .nil (ch 120)) (.one (.group (wrap (.snoc .nil (.rep (.letters {97} false) 0 none)))))) (ch 98))

/-- Its text. -/
def lazyText : List Nat := [120, 40, 97, 42, 63, 41, 98]

theorem lazy_stands : Stands noOptions (lazyText) lazyTree := by
  refine ⟨[true], ?_⟩
  rw [noOptions_flavor]
  exact .other (written_letter (c := 120) (by omega) (by omega)) nofun (.other .opn nofun (.other (written_letter (c := 97) (by omega) (by omega)) nofun
    (.lazy .star (.other .cls' nofun (.other (written_letter (c := 98) (by omega) (by omega)) nofun .nil)))))

theorem lazy_ok : lazyTree.Ok := by
  refine ⟨⟨⟨trivial, ch_ok (by omega), rfl⟩, ⟨trivial, ⟨ch_ok (c := 97) (by omega), nofun, nofun⟩, rfl⟩, rfl⟩, ch_ok (by omega), rfl⟩

/-- The number of states. -/
def parsedSize (k : Nat) (s : List Nat) : Nat := match parseCapture noOptions.features .latin1 k s with
  | .ok f => f.size
  | _ => 0

theorem parsedSize_eq {k : Nat} {s : List Nat} {f : Fsm} (h : parseCapture noOptions.features .latin1 k s = .ok f) : parsedSize k s = f.size := by
  unfold parsedSize; rw [h]

/-- The hypotheses are met. -/
theorem C58_case : ∃ f, Searches noOptions .latin1 (lazyText) 1 lazyTree f f.surround ∧ lazyTree.must 1 = true := by
  rcases C58_language lazy_stands lazy_ok rfl .latin1 1 with ⟨f, hf, -⟩ | ⟨h, -⟩
  · refine ⟨f, ⟨lazy_stands, lazy_ok, rfl, hf, .inr rfl, ?_⟩, rfl⟩
    have hs : parsedSize 1 lazyText ≤ 100 := by decide +kernel
    have hs' := parsedSize_eq hf
    unfold Fsm.surround
    rw [Fsm.appendAnything_size, Fsm.prependAnything_size, ← hs']
    exact le_trans (Nat.add_le_add_right (Nat.add_le_add_right hs 1) 1) (by norm_num)
  · cases h

/-! ### Marks inside of the captured group -/

/-- `(^a)` -/
def caretTree : Alt := wrap (.snoc .nil (.one (.group (wrap (.snoc (.snoc .nil (.one .bol)) (ch 97))))))

/-- `(a$)` -/
def dollarTree : Alt := wrap (.snoc .nil (.one (.group (wrap (.snoc (.snoc .nil (ch 97)) (.one .eol))))))

theorem caret_stands : Stands noOptions [40, 94, 97, 41] caretTree := by
  refine ⟨[], ?_⟩
  rw [noOptions_flavor]
  exact .other .opn nofun (.other .bol nofun (.other (written_letter (c := 97) (by omega) (by omega)) nofun (.other .cls' nofun .nil)))

theorem dollar_stands : Stands noOptions [40, 97, 36, 41] dollarTree := by
  refine ⟨[], ?_⟩
  rw [noOptions_flavor]
  exact .other .opn nofun (.other (written_letter (c := 97) (by omega) (by omega)) nofun (.other .eol nofun (.other .cls' nofun .nil)))

theorem caret_ok : caretTree.Ok := ⟨trivial, ⟨⟨trivial, trivial, rfl⟩, ch_ok (c := 97) (by omega), rfl⟩, rfl⟩

theorem dollar_ok : dollarTree.Ok := ⟨trivial, ⟨⟨trivial, ch_ok (c := 97) (by omega), rfl⟩, trivial, rfl⟩, rfl⟩

theorem caret_den : caretTree.den Codec.ascii = single [258, 97] := by
  show (1 : Language Nat) * ((1 * single [258]) * (ch 97).den Codec.ascii) = _
  rw [ch_den (by omega), one_mul, one_mul]
  ext w
  simp only [Language.mem_mul]
  constructor
  · rintro ⟨a, ha, b, hb, rfl⟩
    rw [show a = [258] from ha, show b = [97] from hb]; rfl
  · intro hw
    exact ⟨[258], rfl, [97], rfl, (show w = [258, 97] from hw).symm⟩

theorem dollar_den : dollarTree.den Codec.ascii = single [97, 259] := by
  show (1 : Language Nat) * ((1 * (ch 97).den Codec.ascii) * single [259]) = _
  rw [ch_den (by omega), one_mul, one_mul]
  ext w
  simp only [Language.mem_mul]
  constructor
  · rintro ⟨a, ha, b, hb, rfl⟩
    rw [show a = [97] from ha, show b = [259] from hb]; rfl
  · intro hw
    exact ⟨[97], rfl, [259], rfl, (show w = [97, 259] from hw).symm⟩

/-- A property of what is parsed. -/
def parsedHas (P : Fsm → Bool) (k : Nat) (s : List Nat) : Bool := match parseCapture noOptions.features .latin1 k s with
  | .ok f => P f
  | _ => false

theorem parsedHas_eq {P : Fsm → Bool} {k : Nat} {s : List Nat} {f : Fsm} (h : parseCapture noOptions.features .latin1 k s = .ok f)
    (hp : parsedHas P k s = true) : P f = true := by
  unfold parsedHas at hp; rw [h] at hp; exact hp

theorem starts_run {E : Nat → Nat → Nat → Prop} {A : Nat → Nat → Nat} {S : Nat → Prop} {n : Nat} {u : List Nat} {q : Nat} {tr : List (Nat × Nat)}
    (h : ∀ c, c = 258 → ∀ r p, S r → E r c p → p = n) (ht : Thread E A S u q tr) : Run E n u q := by
  obtain ⟨r, p, hS, hE, hr⟩ := thread_iff.1 ⟨tr, ht⟩
  rw [h _ rfl _ _ hS hE] at hr
  exact hr

theorem accepts_run {g : Fsm} {s q : Nat} {u : List Nat} (ha : Accepts g q) (hr : Run g.Edge s u q) :
    q ∈ g.finals ∨ ∃ p ∈ g.finals, Run g.Edge s (u ++ [259]) p := by
  rcases ha with hq | ⟨p, he, hq | ⟨p', he', hq⟩⟩
  · exact .inl hq
  · exact .inr ⟨p, hq, hr.snoc (by decide) he⟩
  · exact .inr ⟨p', hq, (hr.snoc (by decide) he).snocEps he'⟩

theorem accepts_last {g : Fsm} {q n : Nat} (ha : Accepts g q) (hfin : ∀ q, q ∈ g.finals ↔ q = n)
    (key : ∀ E : Nat → Nat → Nat → Prop, (∀ q c p, E q c p ↔ g.Edge q c p) →
      ∀ q p, E q 259 p → q ≠ n → (p = n ∨ ∃ p', E p 257 p' ∧ p' = n) → False) : q ∈ g.finals := by
  by_contra hn
  have hq' : q ≠ n := fun h => hn ((hfin _).2 h)
  rcases ha with hq | ⟨p, he, hq | ⟨p', he', hq⟩⟩
  · exact hn hq
  · exact key _ (fun _ _ _ => Iff.rfl) _ _ he hq' (.inl ((hfin _).1 hq))
  · exact key _ (fun _ _ _ => Iff.rfl) _ _ he hq' (.inr ⟨p', he', (hfin _).1 hq⟩)

/-- How a search starts if nothing can be read after the begin mark from state 0. -/
theorem surround_starts {f : Fsm} (h : f.WF) (h0 : ∀ p, ¬ f.Edge 0 258 p) {A : Nat → Nat → Nat} {u : List Nat} {q : Nat} {tr : List (Nat × Nat)}
    (ht : Thread f.surround.Edge A (Starts f.surround) u q tr) : Run f.surround.Edge f.size u q := by
  have h1 := surround_edge h
  have h2 := Fsm.prependAnything_edge h
  have hin : f.surround.initial = f.size := by unfold Fsm.surround; rw [Fsm.appendAnything_initial, Fsm.prependAnything_initial]
  have hz : ∀ r, Starts f.surround r → r = f.size ∨ r = 0 := fun r hr => hr.imp_left fun h => h.trans hin
  have hi := h.init_lt
  have hsz := Fsm.prependAnything_size (f := f)
  have hlt : ∀ {q c p}, f.Edge q c p → q < f.size := fun he => (h.edge_lt he).1
  refine starts_run (fun c hc r p hS hE => ?_) ht
  have hS := hz r hS
  rcases (h1 r c p).1 hE with hE' | ⟨h3, -⟩ | ⟨-, -, h3⟩
  · rcases (h2 r c p).1 hE' with hE'' | ⟨-, h3, -⟩ | ⟨-, -, h3⟩
    · have := hlt hE''
      have hr0 : r = 0 := hS.resolve_left (by omega)
      rw [hr0, hc] at hE''
      exact absurd hE'' (h0 p)
    · exact h3
    · omega
  · rcases hS with h4 | h4 <;> omega
  · omega

theorem surround_word {f : Fsm} (h : f.WF) {v : List Nat} (hL : f.Lang = single v) {c : Nat} (hc : c ∈ v) {u : List Nat} {q : Nat}
    (hr : Run f.surround.Edge f.size u q) (hq : q ∈ f.surround.finals) : c ∈ u := by
  have hin : f.surround.initial = f.size := by unfold Fsm.surround; rw [Fsm.appendAnything_initial, Fsm.prependAnything_initial]
  have hu : u ∈ f.surround.Lang := ⟨q, hq, by rw [hin]; exact hr⟩
  rw [Fsm.lang_surround h, hL] at hu
  simp only [Language.mem_mul] at hu
  obtain ⟨_, ⟨a, -, b, hb, rfl⟩, d, -, rfl⟩ := hu
  rw [show b = v from hb]
  simp [hc]

/-- Nothing can be read after the begin mark from state 0. -/
def noCaret (f : Fsm) : Bool := decide (f.dst 0 258 = ∅)

/-- The end mark does not lead to a final state. -/
def noDollar (f : Fsm) : Bool := (List.range f.size).all fun q => decide (∀ p ∈ f.dst q 259, p ∉ f.finals)

theorem noCaret_spec {f : Fsm} (hr : f.Raw) (h : noCaret f = true) (p : Nat) : ¬ f.Edge 0 258 p := by
  unfold noCaret at h
  rw [Fsm.edge_iff, Fsm.key_raw hr, of_decide_eq_true h]
  simp

theorem noDollar_spec {f : Fsm} (hw : f.WF) (hr : f.Raw) (h : noDollar f = true) {q p : Nat} (he : f.Edge q 259 p) : p ∉ f.finals := by
  unfold noDollar at h
  rw [List.all_eq_true] at h
  have h1 := of_decide_eq_true (h q (List.mem_range.2 (hw.edge_lt he).1))
  rw [Fsm.edge_iff, Fsm.key_raw hr] at he
  exact h1 p he

/-- Defect: `^` inside of the captured group is never matched: `(^a)` is found in no text. -/
theorem C58_caret_in_group : ∃ f, Searches noOptions .latin1 [40, 94, 97, 41] 1 caretTree f f.surround ∧ [258, 97] ∈ f.Lang ∧
    ∀ w : List Nat, (∀ c ∈ w, c < 256) → w.length < npos →
      ∃ st r, (slowCompile f.surround).run w = some st ∧ (slowCompile f.surround).getCapture st = some r ∧ r = (false, none) := by
  rcases C58_language caret_stands caret_ok rfl .latin1 1 with ⟨f, hf, -, hL⟩ | ⟨h, -⟩
  · have hs : parsedSize 1 [40, 94, 97, 41] ≤ 100 := by decide +kernel
    rw [parsedSize_eq hf] at hs
    have hz : noCaret f = true := parsedHas_eq hf (by decide +kernel)
    have hS : Searches noOptions .latin1 [40, 94, 97, 41] 1 caretTree f f.surround := by
      refine ⟨caret_stands, caret_ok, rfl, hf, .inr rfl, ?_⟩
      unfold Fsm.surround
      rw [Fsm.appendAnything_size, Fsm.prependAnything_size]
      exact le_trans (Nat.add_le_add_right (Nat.add_le_add_right hs 1) 1) (by norm_num)
    have hL : f.Lang = single [258, 97] := hL.trans caret_den
    refine ⟨f, hS, by rw [hL]; rfl, fun w hw hl => ?_⟩
    obtain ⟨⟨h1, -⟩, h2, -⟩ := hS.whole
    have hw' : IsWord w := fun c hc => ⟨lt_trans (hw c hc) (by decide), by have := hw c hc; omega⟩
    obtain ⟨st, r, hst, hr, h3, -, h4, -⟩ := slow_capture hS.ready hw' hl
    refine ⟨st, r, hst, hr, ?_⟩
    cases hx : r.2 with
    | none => rw [← hx, ← h4 hx]
    | some x =>
      exfalso
      obtain ⟨ha, u, hu, tr, ht, -⟩ := h3 x hx
      have hrun := surround_starts h1.wf (noCaret_spec h2 hz) ht
      have hlow : 258 ∉ u := fun h => by have := hw 258 (hu.subset h); omega
      have hlow' : 258 ∉ u ++ [259] := by simp [hlow]
      rcases accepts_run ha hrun with hq | ⟨p, hq, hp⟩
      · exact hlow (surround_word h1.wf hL (c := 258) (by simp) hrun hq)
      · exact hlow' (surround_word h1.wf hL (c := 258) (by simp) hp hq)
  · cases h

/-- Defect: `$` at the end of the captured group is never matched: `(a$)` is found in no text. -/
theorem C58_dollar_in_group : ∃ f, Searches noOptions .latin1 [40, 97, 36, 41] 1 dollarTree f f.surround ∧ [97, 259] ∈ f.Lang ∧
    ∀ w : List Nat, (∀ c ∈ w, c < 256) → w.length < npos →
      ∃ st r, (slowCompile f.surround).run w = some st ∧ (slowCompile f.surround).getCapture st = some r ∧ r = (false, none) := by
  rcases C58_language dollar_stands dollar_ok rfl .latin1 1 with ⟨f, hf, -, hL⟩ | ⟨h, -⟩
  · have hs : parsedSize 1 [40, 97, 36, 41] ≤ 100 := by decide +kernel
    rw [parsedSize_eq hf] at hs
    have hz : noCaret f = true := parsedHas_eq hf (by decide +kernel)
    have hd : noDollar f = true := parsedHas_eq hf (by decide +kernel)
    have hS : Searches noOptions .latin1 [40, 97, 36, 41] 1 dollarTree f f.surround := by
      refine ⟨dollar_stands, dollar_ok, rfl, hf, .inr rfl, ?_⟩
      unfold Fsm.surround
      rw [Fsm.appendAnything_size, Fsm.prependAnything_size]
      exact le_trans (Nat.add_le_add_right (Nat.add_le_add_right hs 1) 1) (by norm_num)
    have hL : f.Lang = single [97, 259] := hL.trans dollar_den
    refine ⟨f, hS, by rw [hL]; rfl, fun w hw hl => ?_⟩
    obtain ⟨⟨h1, -⟩, h2, -⟩ := hS.whole
    have hw' : IsWord w := fun c hc => ⟨lt_trans (hw c hc) (by decide), by have := hw c hc; omega⟩
    obtain ⟨st, r, hst, hr, h3, -, h4, -⟩ := slow_capture hS.ready hw' hl
    refine ⟨st, r, hst, hr, ?_⟩
    cases hx : r.2 with
    | none => rw [← hx, ← h4 hx]
    | some x =>
      exfalso
      obtain ⟨ha, u, hu, tr, ht, -⟩ := h3 x hx
      have hrun := surround_starts h1.wf (noCaret_spec h2 hz) ht
      have hlow : 259 ∉ u := fun h => by have := hw 259 (hu.subset h); omega
      have hnf : x.num ∉ f.surround.finals := fun hq => hlow (surround_word h1.wf hL (c := 259) (by simp) hrun hq)
      have hfin : ∀ q, q ∈ f.surround.finals ↔ q = f.prependAnything.size := by
        intro q; unfold Fsm.surround; rw [Fsm.appendAnything_finals]; simp
      have e1 := surround_edge h1.wf
      have e2 := Fsm.prependAnything_edge h1.wf
      have e3 : ∀ q p, f.Edge q 259 p → p ∉ f.finals := fun q p he => noDollar_spec h1.wf h2 hd he
      have hlt : ∀ {q c p}, f.Edge q c p → q < f.size ∧ p < f.size := fun he => ⟨(h1.wf.edge_lt he).1, (h1.wf.edge_lt he).2.2⟩
      have hi := h1.wf.init_lt
      have hsz := Fsm.prependAnything_size (f := f)
      have key : ∀ E : Nat → Nat → Nat → Prop, (∀ q c p, E q c p ↔ f.prependAnything.Edge q c p ∨
          (q = f.prependAnything.size ∧ p = f.prependAnything.size ∧ c < 264) ∨ (q ∈ f.prependAnything.finals ∧ p = f.prependAnything.size ∧ c = 257)) →
          ∀ q p, E q 259 p → q ≠ f.prependAnything.size → (p = f.prependAnything.size ∨ ∃ p', E p 257 p' ∧ p' = f.prependAnything.size) → False := by
        intro E hE q p he hq hor
        obtain ⟨E', hE'⟩ : ∃ E', E' = f.prependAnything.Edge := ⟨_, rfl⟩
        rw [← hE'] at hE e2
        have hp : p ≠ f.prependAnything.size ∧ (f.Edge q 259 p ∨ p = f.size) := by
          rcases (hE _ _ _).1 he with he | ⟨h, -⟩ | ⟨-, -, h⟩
          · rcases (e2 _ _ _).1 he with he | ⟨-, h, -⟩ | ⟨-, -, h⟩
            · have := hlt he
              exact ⟨by omega, .inl he⟩
            · exact ⟨by omega, .inr h⟩
            · cases h
          · exact absurd h hq
          · cases h
        rcases hor with h | ⟨p', he', rfl⟩
        · exact hp.1 h
        · rcases (hE _ _ _).1 he' with h | ⟨h, -⟩ | ⟨h, -⟩
          · rcases (e2 _ _ _).1 h with h | ⟨-, h, -⟩ | ⟨-, h, -⟩
            · have := hlt h; omega
            · omega
            · omega
          · exact hp.1 h
          · rw [Fsm.prependAnything_finals] at h
            rcases hp.2 with h' | h'
            · exact e3 _ _ h' h
            · have := h1.wf.fin_lt _ h; omega
      exact hnf (accepts_last ha hfin fun E hE => key E fun q c p => (hE q c p).trans (e1 q c p))
  · cases h

/-- Defect: with the capture feature `a{?2}` is accepted, and means `a{2}`; without the feature it is rejected. -/
theorem C58_question_in_braces : tokensC defaultFeatures 6 [97, 123, 63, 50, 125] = .ok ([.letters {97} false, .count 2 (some 2)], [true]) ∧
    tokens defaultFeatures 6 [97, 123, 63, 50, 125] = .throws := by
  constructor <;> decide +kernel

end Props
end Pire
