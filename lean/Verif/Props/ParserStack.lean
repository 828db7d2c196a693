import Verif.Proofs.ParserRuns
import Verif.Proofs.ParserPull
import Verif.Proofs.KeptFlag
import Verif.Props.InlineCases

/-!
# C72: the memory of the parser

`steps e World.start evs` is what `yyparse` does on the events `evs`; `reads evs` are the tokens the lexer has returned so far.
-/

namespace Pire.Props

open Pire Pire.Spec Pire.Lex Pire.Enc Pire.Parse Pire.Fsm Pire.Stack

/-- Whatever is read, shifted and reduced, the actions use no null pointer and no deleted object, delete nothing twice, and end. -/
theorem C72_safe (e : Encoding) (evs : List Event) (hc : OrderedCounts (reads evs)) : steps e World.start evs ≠ some .bad := fun h =>
  steps_fine evs (ts := []) Inv.start (fun _ hx => by simp [World.start] at hx) hc h

theorem steps_inv {e : Encoding} {evs : List Event} (hc : OrderedCounts (reads evs)) {w : World} (h : steps e World.start evs = some (.ok w)) :
    Inv e w.items w.heap w.ret (reads evs) := steps_fine evs (ts := []) Inv.start (fun _ hx => by simp [World.start] at hx) hc h

/-- Wherever parsing ends without an exception - by acceptance, by a syntax error, because the lexer has failed -, the destructors delete every object that has been allocated,
each of them once. -/
theorem C72_nothing_leaks {e : Encoding} {evs : List Event} (hc : OrderedCounts (reads evs)) {w : World} (h : steps e World.start evs = some (.ok w)) :
    ∃ heap, w.cleanup = .ok heap ∧ ∀ p, heap.cells p = none := (steps_inv hc h).cleanup

/-- In between, there are no objects but the values on the stack and of the token read ahead, each of them in one place only. -/
theorem C72_owned {e : Encoding} {evs : List Event} (hc : OrderedCounts (reads evs)) {w : World} (h : steps e World.start evs = some (.ok w)) :
    ((w.look.toList ++ w.stack).filterMap Prod.snd).Nodup ∧ ∀ p, w.heap.cells p ≠ none ↔ ∃ x ∈ w.look.toList ++ w.stack, x.2 = some p := by
  have hi := steps_inv hc h
  exact ⟨hi.nodup, fun p => (hi.live p).trans mem_pointers⟩

/-- When the whole input has been reduced to the start symbol, the result is that of the tree that spells the tokens. -/
theorem C72_accepted {e : Encoding} {evs : List Event} (hc : OrderedCounts (reads evs)) {w : World} (h : steps e World.start evs = some (.ok w)) {p : Option Nat}
    (hs : w.stack = [(.regexp, p)]) (hl : w.look = none) : ∃ t f, t.spell = reads evs ∧ evalAlt e t = .ok f ∧ w.ret = some f := by
  obtain ⟨-, -, -, ss, h4, h5⟩ := steps_inv hc h
  rw [show w.items = [(.regexp, p)] by simp [World.items, hs, hl]] at h4
  rcases h4 with _ | ⟨h1, h2⟩
  cases h2
  dsimp only at h1
  cases h1 with
  | @regexp t f h1 h2 => exact ⟨t, f, by simpa using h5, h1, h2⟩

/-- This does not depend on the order of the steps: it is the automaton of `Lexer::Parse` in the other properties. -/
theorem C72_result {F : List Feature} {e : Encoding} {s : List Nat} {evs : List Event} (ht : tokens F (s.length + 1) s = .ok (reads evs)) (hc : OrderedCounts (reads evs))
    {w : World} (h : steps e World.start evs = some (.ok w)) {p : Option Nat} (hs : w.stack = [(.regexp, p)]) (hl : w.look = none) :
    ∃ f, parsePattern F e s = .ok f ∧ w.ret = some f := by
  obtain ⟨t, f, h1, h2, h3⟩ := C72_accepted hc h hs hl
  exact ⟨f, by rw [parsePattern_tree ht (parse_iff.2 h1), h2], h3⟩

/-- There are such steps for every pattern that parses, … -/
theorem C72_parses {F : List Feature} {e : Encoding} {s : List Nat} {ts : List Tok} (ht : tokens F (s.length + 1) s = .ok ts) {t : Alt} (hp : t.spell = ts) {f : Fsm}
    (hf : parsePattern F e s = .ok f) :
    ∃ evs w, steps e World.start evs = some (.ok w) ∧ reads evs = ts ∧ w.stack = [(.regexp, none)] ∧ w.look = none ∧ w.ret = some f := by
  rw [parsePattern_tree ht (parse_iff.2 hp)] at hf
  have := regexp_gets (e := e) t
  rw [hf] at this
  obtain ⟨evs, w, h1, h2, h3⟩ := this
  exact ⟨evs, w, h1, h2.trans hp, h3⟩

/-- … and for every pattern in which an action throws. -/
theorem C72_throws {F : List Feature} {e : Encoding} {s : List Nat} {ts : List Tok} (ht : tokens F (s.length + 1) s = .ok ts) {t : Alt} (hp : t.spell = ts)
    (hf : parsePattern F e s = .throws) : ∃ evs heap, steps e World.start evs = some (.throws heap) ∧ reads evs <+: ts := by
  rw [parsePattern_tree ht (parse_iff.2 hp)] at hf
  have := regexp_gets (e := e) t
  rw [hf] at this
  obtain ⟨evs, heap, h1, h2⟩ := this
  exact ⟨evs, heap, h1, hp ▸ h2⟩

/-- But an exception leaves `yyparse` at once, without the destructors: some object is never deleted. -/
theorem C72_exception_leaks {e : Encoding} {evs : List Event} (hc : OrderedCounts (reads evs)) {heap : Heap} (h : steps e World.start evs = some (.throws heap)) :
    ∃ p, heap.cells p ≠ none := (steps_fine evs (ts := []) Inv.start (fun _ hx => by simp [World.start] at hx) hc h).1

/-- The only reason for an exception is that an automaton is too large: part of the tokens is spelled by a tree without a value. -/
theorem C72_exception_reason {e : Encoding} {evs : List Event} (hc : OrderedCounts (reads evs)) {heap : Heap} (h : steps e World.start evs = some (.throws heap)) :
    ∃ t : Alt, t.spell <:+: reads evs ∧ evalAlt e t = .throws := by
  obtain ⟨-, t1, t2, t3, t, h1, h2, h3⟩ := steps_fine evs (ts := []) Inv.start (fun _ hx => by simp [World.start] at hx) hc h
  exact ⟨t, ⟨t1, t3, by rw [h2, List.append_assoc]; exact h1.symm⟩, h3⟩

/-! ### Both occur -/

/-- A deterministic automaton has a state for each two words that are told apart: if there are too many, `Determine` fails. -/
theorem C16_fails_if_many_rests {f : Fsm} (h : f.WF) (hd : f.determined = false) {m : Nat} (hm : ManyRests [f.Lang] (if m ≠ 0 then m else 200000)) : (f.determine m).2 = false := by
  by_contra hx
  obtain ⟨d, hlang, hsize, -, -, -, -⟩ := (determine_spec h hd m).1 (by simpa using hx)
  obtain ⟨ws, hw, hp, hn⟩ := hm
  have hrun : ∀ w, IsWord w → ∀ q < (f.determine m).1.size, ∃ p < (f.determine m).1.size, Run (f.determine m).1.Edge q w p := by
    intro w
    induction w with
    | nil => intro _ q hq; exact ⟨q, hq, .refl _⟩
    | cons c w ih =>
      intro hw q hq
      obtain ⟨p, hp⟩ := d.exists_edge hq (hw c (by simp))
      obtain ⟨r, hr, hr'⟩ := ih (fun x hx => hw x (by simp [hx])) p (d.wf.edge_lt hp).2.2
      exact ⟨r, hr, .step (hw c (by simp)).2 hp hr'⟩
  choose! end_ hend hend' using fun w hw => hrun w hw _ d.wf.init_lt
  have hnd : (ws.map end_).Nodup := by
    rw [List.Nodup, List.pairwise_map]
    refine hp.imp_of_mem ?_
    intro u v hu hv hne he
    refine hne fun L hL z _ => ?_
    rw [List.mem_singleton.1 hL, ← hlang]
    have k1 := d.residual (hend' u (hw u hu)) z
    have k2 := d.residual (hend' v (hw v hv)) z
    rw [he] at k1
    exact k1.symm.trans k2
  have hsub : (ws.map end_).length ≤ (f.determine m).1.size := by
    have h1 := List.toFinset_card_of_nodup hnd
    have h2 : (ws.map end_).toFinset ⊆ Finset.range (f.determine m).1.size := by
      intro q hq
      obtain ⟨w, h3, rfl⟩ := List.mem_map.1 (List.mem_toFinset.1 hq)
      exact Finset.mem_range.2 (hend w (hw w h3))
    have h3 := Finset.card_le_card h2
    rw [Finset.card_range] at h3
    omega
  rw [List.length_map, hn] at hsub
  omega

/-- `~a` throws if there are more than 200001 words any two of which are told apart by `a` after some continuation. -/
theorem C07_throws_if_many_rests {f : Fsm} (h : f.WF) (hd : f.determined = false) (hm : ManyRests [f.Lang] 200000) : f.complement = none := by
  have := C16_fails_if_many_rests h hd (m := 0) (by simpa using hm)
  unfold Fsm.complement
  simp [this]

/-- `.*a.{17}` -/
def laterCat : Cat := .snoc (.snoc (.snoc .nil (.rep .dot 0 none)) (ch 97)) (.rep .dot 17 (some 17))

theorem laterCat_ok : (wrap laterCat).Ok := ⟨⟨⟨trivial, ⟨trivial, nofun, nofun⟩, rfl⟩, ch_ok (by omega), rfl⟩, ⟨trivial, by intro h hh; cases hh; rfl, nofun⟩, rfl⟩

theorem later_den {w : List Nat} (hw : ∀ c ∈ w, c < 256) : w ∈ (wrap laterCat).den Codec.ascii ↔ w.reverse[17]? = some 97 := by
  show w ∈ ((1 * repeated anyByte 0 none) * (ch 97).den Codec.ascii) * repeated anyByte 17 (some 17) ↔ _
  rw [ch_den (by omega), one_mul]
  constructor
  · rintro ⟨x, ⟨u, -, a, rfl, rfl⟩, v, ⟨n, h1, h2, hv⟩, rfl⟩
    have hn : n = 17 := le_antisymm (h2 17 rfl) h1
    subst hn
    have hl := ((anyByte_pow 17 v).1 hv).1
    show (u ++ [97] ++ v).reverse[17]? = some 97
    rw [List.reverse_append, List.getElem?_append_right (by simp [hl])]
    simp [hl]
  · intro h
    have hl : 17 < w.reverse.length := (List.getElem?_eq_some_iff.1 h).1
    rw [List.length_reverse] at hl
    have e : w[w.length - 18]? = some 97 := by
      rw [List.getElem?_reverse hl] at h
      rwa [show w.length - 1 - 17 = w.length - 18 by omega] at h
    obtain ⟨h1, h2⟩ := List.getElem?_eq_some_iff.1 e
    refine ⟨w.take (w.length - 18) ++ [97], ⟨w.take (w.length - 18), ⟨_, Nat.zero_le _, nofun, (anyByte_pow _ _).2 ⟨rfl, fun c hc => hw c (List.mem_of_mem_take hc)⟩⟩, [97], rfl, rfl⟩,
      w.drop (w.length - 18 + 1), ⟨17, le_rfl, by intro x hx; cases hx; rfl, (anyByte_pow _ _).2 ⟨by simp; omega, fun c hc => hw c (List.mem_of_mem_drop hc)⟩⟩, ?_⟩
    show (w.take (w.length - 18) ++ [97]) ++ w.drop (w.length - 18 + 1) = w
    rw [List.append_assoc, List.singleton_append, ← h2, List.getElem_cons_drop, List.take_append_drop]

/-- The eighteen letters `a` and `b` that stand for the bits of a number. -/
def bits18 (n : Nat) : List Nat := (List.range 18).map fun i => if n.testBit i then 97 else 98

theorem bits18_mem {n c : Nat} (h : c ∈ bits18 n) : c = 97 ∨ c = 98 := by
  obtain ⟨i, -, rfl⟩ := List.mem_map.1 h
  split
  · exact .inl rfl
  · exact .inr rfl

theorem later_many {L : Language Nat} (hL : ∀ w, (∀ c ∈ w, c = 97 ∨ c = 98) → (w ∈ L ↔ w.reverse[17]? = some 97)) : ManyRests [L] 200000 := by
  refine ⟨(List.range 200002).map bits18, ?_, ?_, by simp⟩
  · intro w hw
    obtain ⟨n, -, rfl⟩ := List.mem_map.1 hw
    intro c hc
    rcases bits18_mem hc with rfl | rfl <;> exact ⟨by decide, by decide⟩
  · rw [List.pairwise_map]
    refine List.Pairwise.imp_of_mem ?_ (List.nodup_range (n := 200002))
    intro m n hm hn hne hs
    rw [List.mem_range] at hm hn
    have : ∃ i, i < 18 ∧ m.testBit i ≠ n.testBit i := by
      by_contra hc
      push Not at hc
      refine hne (Nat.eq_of_testBit_eq fun i => ?_)
      by_cases hi : i < 18
      · exact hc i hi
      · have hp : 2 ^ 18 ≤ 2 ^ i := Nat.pow_le_pow_right (by omega) (by omega)
        rw [Nat.testBit_lt_two_pow (show m < 2 ^ i by omega), Nat.testBit_lt_two_pow (show n < 2 ^ i by omega)]
    obtain ⟨i, hi, hb⟩ := this
    have key : ∀ n : Nat, (bits18 n ++ List.replicate i 98).reverse[17]? = some 97 ↔ n.testBit i = true := by
      intro n
      rw [List.reverse_append, List.reverse_replicate, List.getElem?_append_right (by simp; omega), List.getElem?_reverse (by simp [bits18]; omega)]
      have e : (bits18 n).length - 1 - (17 - (List.replicate i 98).length) = i := by simp [bits18]; omega
      rw [e]
      simp [bits18, hi]
    have := hs L (by simp) (List.replicate i 98) fun c hc => by rw [List.eq_of_mem_replicate hc]; exact ⟨by decide, by decide⟩
    have hw : ∀ n, ∀ c ∈ bits18 n ++ List.replicate i 98, c = 97 ∨ c = 98 := by
      intro n c hc
      rcases List.mem_append.1 hc with hc | hc
      · exact bits18_mem hc
      · exact .inr (List.eq_of_mem_replicate hc)
    rw [hL _ (hw m), hL _ (hw n), key, key] at this
    exact hb (Bool.eq_iff_iff.2 this)

/-- `~.*a.{17}` has no value, … -/
theorem later_throws : evalAlt .latin1 (.one (.one (.not laterCat))) = .throws := by
  have h1 := evalAlt_sat .latin1 (wrap laterCat) laterCat_ok
  rw [show evalAlt .latin1 (wrap laterCat) = evalCat .latin1 laterCat from rfl] at h1
  rw [evalAlt, evalConj, evalNeg]
  cases hc : evalCat .latin1 laterCat with
  | bad => rw [hc] at h1; exact h1.elim
  | throws => rfl
  | ok f =>
    rw [hc] at h1
    have hu : f.determined = false := (kept_undetermined .latin1).evalCat laterCat f hc
    have := C07_throws_if_many_rests h1.1.wf hu (later_many fun w hw => by
      rw [h1.2.1]
      exact later_den fun c hc => by rcases hw c hc with rfl | rfl <;> omega)
    show lift f.complement = _
    rw [this]; rfl

theorem runs_throws {e : Encoding} {t : Alt} (h : evalAlt e t = .throws) : ∃ evs heap, steps e World.start evs = some (.throws heap) ∧ reads evs <+: t.spell := by
  have := regexp_gets (e := e) t
  rw [h] at this
  exact this

/-- … so the memory of `.`, `{17}`, … is lost when it is parsed. -/
theorem C72_case_leaks : ∃ evs heap, steps .latin1 World.start evs = some (.throws heap) ∧ reads evs <+: .tilde :: laterCat.spell ∧ ∃ p, heap.cells p ≠ none := by
  obtain ⟨evs, heap, h1, h2⟩ := runs_throws later_throws
  refine ⟨evs, heap, h1, h2, C72_exception_leaks ?_ h1⟩
  have : OrderedCounts (Tok.tilde :: laterCat.spell) := by
    intro lo hi hm
    have : Tok.count lo (some hi) = .count 17 (some 17) := by simpa [laterCat, Cat.spell, Iter.spell, Term.spell, ch] using hm
    cases this
    exact le_rfl
  exact fun lo hi hm => this lo hi (h2.subset hm)

/-- `(.)|.`: twenty-one steps. -/
theorem C72_case_parses : ∃ evs w, steps .latin1 World.start evs = some (.ok w) ∧ reads evs = [.opn, .dot, .cls, .bar, .dot] ∧ w.stack = [(.regexp, none)] ∧ w.look = none ∧
    OrderedCounts (reads evs) := by
  have h := regexp_gets (e := .latin1) (.or (wrap (.snoc .nil (.one (.group (wrap (.snoc .nil (.one .dot))))))) (.one (.one (.snoc .nil (.one .dot)))))
  obtain ⟨evs, w, h1, h2, h3, h4, -⟩ := h
  refine ⟨evs, w, h1, h2, h3, h4, ?_⟩
  rw [h2]
  intro lo hi hm
  simp [wrap, Alt.spell, Conj.spell, Neg.spell, Cat.spell, Iter.spell, Term.spell] at hm

end Pire.Props
