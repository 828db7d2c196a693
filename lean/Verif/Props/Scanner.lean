import Verif.Proofs.MultiCopy
import Verif.Props.Running
import Verif.Props.Algebra

/-!
# Properties C23, C25 and the end-to-end forms of C29–C32: scanners compiled from automata

`compile P base f` is `f.Compile<Scanner>()`; its memory block is allocated at the 8-aligned address `base`.
`(s.scn P).after (s.scn P).initial w` is the state after feeding the word `w` letter by letter.
-/

namespace Pire.Props

open Pire Pire.Spec Pire.Scn Pire.Multi Pire.Fsm

/-- The four scanner types of multi.h:1115-1123. -/
def Typedef (P : Policy) : Prop :=
  P = scannerPolicy ∨ P = scannerNoMaskPolicy ∨ P = nonrelocPolicy ∨ P = nonrelocNoMaskPolicy

theorem Typedef.real {P : Policy} (h : Typedef P) : P.Real := by
  rcases h with rfl | rfl | rfl | rfl
  · exact .inr rfl
  · exact .inl rfl
  · exact .inr rfl
  · exact .inl rfl

/-- The conditions under which nothing overflows: the block is 8-aligned and lies inside the address space; an automaton that
was determined by hand, with a limit above the default one, has at most 900000 states. -/
structure Placed (P : Policy) (base : Nat) (f : Fsm) (s : Multi) : Prop where
  align : base % 8 = 0
  space : base + bufSize P s.m ≤ 2 ^ 64
  small : f.determined = true → f.size ≤ 900000

section
variable {P : Policy} {base : Nat} {f : Fsm} {s : Multi}

/-! ### C23 -/

/-- A compiled scanner recognises exactly the language of the automaton: `Final` after any word iff the automaton accepts the
word, `AcceptedRegexps` is `{0}` or empty accordingly, `Dead` iff no continuation is accepted. -/
theorem C23_compiled_scanner_decides (hP : Typedef P) (h : f.Good) (ht : f.TagsClean) (hs : compile P base f = some s)
    (hb : Placed P base f s) : Recognizes P s [f.Lang] := (compile_spec hP.real h ht hs hb.align hb.space hb.small).2.2

/-- The same, spelled out for `Final`. -/
theorem C23_final_iff_accepted (hP : Typedef P) (h : f.Good) (ht : f.TagsClean) (hs : compile P base f = some s)
    (hb : Placed P base f s) {w : List Nat} (hw : IsWord w) :
    (s.scn P).final ((s.scn P).after (s.scn P).initial w) = true ↔ w ∈ f.Lang := by
  rw [(C23_compiled_scanner_decides hP h ht hs hb).final w hw]; simp

/-- The same, spelled out for `AcceptedRegexps` and `RegexpsCount`. -/
theorem C23_accepted_regexps (hP : Typedef P) (h : f.Good) (ht : f.TagsClean) (hs : compile P base f = some s)
    (hb : Placed P base f s) {w : List Nat} (hw : IsWord w) :
    s.regexpsCount = 1 ∧
    (w ∈ f.Lang → s.acceptedRegexps P ((s.scn P).after (s.scn P).initial w) = [0]) ∧
    (w ∉ f.Lang → s.acceptedRegexps P ((s.scn P).after (s.scn P).initial w) = []) := by
  classical
  have := C23_compiled_scanner_decides hP h ht hs hb
  refine ⟨this.count, fun hL => ?_, fun hL => ?_⟩
  · rw [this.accepted w hw, hits_one, if_pos hL]
  · rw [this.accepted w hw, hits_one, if_neg hL]

theorem build_tagsIn (M : Nat → Prop) (hor : ∀ a b, M a → M b → M (a ||| b)) (e : Expr) : ∀ f, build e = some f → f.TagsIn M := by
  induction e with
  | empty => intro f hf; cases hf; exact .init
  | nothing => intro f hf; cases hf; exact TagsIn.init.of_eq rfl
  | lit s => intro f hf; cases hf; exact TagsIn.init.of_eq (Fsm.appendStr_tags ..)
  | dot =>
    intro f hf
    have : f = Fsm.init.appendDot := (Option.some.inj hf).symm
    rw [this]
    exact TagsIn.init.of_eq (Fsm.appendDot_tags Fsm.init)
  | strings t => intro f hf; exact TagsIn.init.of_eq (Fsm.appendStrings_tags hf)
  | cat a b iha ihb =>
    intro f hf
    simp only [build, Option.bind_eq_bind, Option.bind_eq_some_iff, Option.pure_def, Option.some.injEq] at hf
    obtain ⟨x, hx, y, hy, rfl⟩ := hf
    exact (iha x hx).concat (ihb y hy)
  | alt a b iha ihb =>
    intro f hf
    simp only [build, Option.bind_eq_bind, Option.bind_eq_some_iff, Option.pure_def, Option.some.injEq] at hf
    obtain ⟨x, hx, y, hy, rfl⟩ := hf
    exact (iha x hx).union (ihb y hy)
  | both a b iha ihb =>
    intro f hf
    simp only [build, Option.bind_eq_bind, Option.bind_eq_some_iff] at hf
    obtain ⟨x, hx, y, hy, hf⟩ := hf
    exact TagsIn.inter hor (iha x hx) (ihb y hy) hf
  | not a iha =>
    intro f hf
    simp only [build, Option.bind_eq_bind, Option.bind_eq_some_iff] at hf
    obtain ⟨x, hx, hf⟩ := hf
    exact TagsIn.complement hor (iha x hx) hf
  | star a iha =>
    intro f hf
    simp only [build, Option.bind_eq_bind, Option.bind_eq_some_iff, Option.pure_def, Option.some.injEq] at hf
    obtain ⟨x, hx, rfl⟩ := hf
    exact (iha x hx).of_eq (Fsm.iterate_tags x)
  | pow a n iha =>
    intro f hf
    simp only [build, Option.bind_eq_bind, Option.bind_eq_some_iff, Option.pure_def, Option.some.injEq] at hf
    obtain ⟨x, hx, rfl⟩ := hf
    exact (iha x hx).power n
  | prependAny a iha =>
    intro f hf
    simp only [build, Option.bind_eq_bind, Option.bind_eq_some_iff, Option.pure_def, Option.some.injEq] at hf
    obtain ⟨x, hx, rfl⟩ := hf
    exact (iha x hx).of_eq (Fsm.prependAnything_tags x)
  | appendAny a iha =>
    intro f hf
    simp only [build, Option.bind_eq_bind, Option.bind_eq_some_iff, Option.pure_def, Option.some.injEq] at hf
    obtain ⟨x, hx, rfl⟩ := hf
    exact (iha x hx).of_eq (Fsm.appendAnything_tags x)
  | surround a iha =>
    intro f hf
    simp only [build, Option.bind_eq_bind, Option.bind_eq_some_iff, Option.pure_def, Option.some.injEq] at hf
    obtain ⟨x, hx, rfl⟩ := hf
    exact (iha x hx).of_eq (Fsm.surround_tags x)
  | reverse a iha =>
    intro f hf
    simp only [build, Option.bind_eq_bind, Option.bind_eq_some_iff, Option.pure_def, Option.some.injEq] at hf
    obtain ⟨x, hx, rfl⟩ := hf
    exact (iha x hx).of_eq (Fsm.reverse_tags x)
  | canon a m iha =>
    intro f hf
    simp only [build, Option.bind_eq_bind, Option.bind_eq_some_iff] at hf
    obtain ⟨x, hx, hf⟩ := hf
    exact TagsIn.canonize hor (iha x hx) hf

/-- End to end: build an automaton with any sequence of API operations, compile it; the scanner accepts exactly the words of
the denoted language. -/
theorem C23_expression_to_scanner (hP : Typedef P) (e : Expr) (ok : e.Ok) (hf : build e = some f) (hs : compile P base f = some s)
    (hb : Placed P base f s) : Recognizes P s [e.den] := by
  obtain ⟨hg, hL, -⟩ := build_spec e ok f hf
  rw [← hL]
  exact C23_compiled_scanner_decides hP hg (build_tagsIn _ or_mod4 e f hf) hs hb

/-- Compiling throws only if determinisation exceeds the limit: more than 200001 words lead to pairwise different sets of
states. -/
theorem C23_throws_only_if_too_big (h : f.Good) (hs : compile P base f = none) :
    ∃ ws : List (List Nat), ws.length = 200002 ∧ (∀ w ∈ ws, IsWord w) ∧
      (ws.map fun w => {q | Run f.removeEpsilons.Edge f.initial w q}).Nodup := by
  unfold compile at hs
  rw [Option.map_eq_none_iff] at hs
  exact C20_throws_only_if_too_big h hs

/-- The addresses `Next`, `Final`, `Dead` and `AcceptedRegexps` read lie inside the allocated block, and states are aligned
row addresses inside it. -/
theorem C23_reads_stay_in_block (hP : Typedef P) (h : f.Good) (ht : f.TagsClean) (hs : compile P base f = some s)
    (hb : Placed P base f s) {st c : Nat} (hst : Reached P s st) (hc : IsLetter c) :
    s.base = base ∧ base ≤ st ∧
    st + P.reloc.tsz * s.get P (.letter c) + P.reloc.tsz ≤ base + bufSize P s.m ∧
    st + 32 * P.masks + 8 ≤ base + bufSize P s.m ∧
    s.stateIndex P st < s.m.statesCount ∧
    s.get P (.finalIndex (s.stateIndex P st)) + (s.acceptedRegexps P st).length < s.m.finalTableSize := by
  obtain ⟨T, hT, hbase⟩ := compile_core hP.real h ht hs hb.align hb.space hb.small
  obtain ⟨q, hq, rfl⟩ := hT.toCore.reached hst
  obtain ⟨b1, b2⟩ := hT.toCore.in_block hq hc
  refine ⟨hbase, ?_, ?_, ?_, ?_, ?_⟩
  · rw [← hbase]; unfold indexToState Multi.trans; omega
  · rw [← hbase]; exact b1
  · rw [← hbase]; exact b2
  · rw [stateIndex_indexToState, hT.states]; exact hq
  · rw [stateIndex_indexToState, hT.toCore.acceptedRegexps_eq hq]; exact (hT.finals q hq).bound

/-! ### C25 -/

/-- `Dead` is claimed for a state exactly if no continuation is accepted. -/
theorem C25_dead_iff (hP : Typedef P) (h : f.Good) (ht : f.TagsClean) (hs : compile P base f = some s)
    (hb : Placed P base f s) {w : List Nat} (hw : IsWord w) :
    (s.scn P).dead ((s.scn P).after (s.scn P).initial w) = true ↔ ∀ v, IsWord v → w ++ v ∉ f.Lang := by
  rw [(C23_compiled_scanner_decides hP h ht hs hb).dead w hw]; simp

/-- In terms of the scanner alone, for every scanner that recognises some languages (compiled, glued, copied, loaded): from a dead
state no continuation leads to a final state. -/
theorem C25_dead_sound {Ls : List (Language Nat)} (hR : Recognizes P s Ls) {st : Nat} (hst : Reached P s st)
    (hd : (s.scn P).dead st = true) {v : List Nat} (hv : IsWord v) : (s.scn P).final ((s.scn P).after st v) = false :=
  hR.deadSound st hst hd v hv

/-! ### Running scanners end to end -/

/-- Running a valid scanner with its own exit masks, on any platform, over any text in memory, reaches the state that feeding the
bytes one by one reaches. -/
theorem C29_valid_scanner {isa : Isa} (hisa : Platform isa) (hP : Typedef P) (hv : Valid P s) (mem : Mem) {b e : Nat} (hbe : b ≤ e)
    {st : Nat} (hst : Reached P s st) :
    (s.scn P).runMulti isa (s.exitMasks P) mem b e st = (s.scn P).after st (bytesAt mem b (e - b)) :=
  runMulti_eq reached_closed (fun _ h => hv.maskSound hP.real h) hisa.sound mem hbe hst

/-- Compiled scanners are valid. -/
theorem C29_compiled_valid (hP : Typedef P) (h : f.Good) (ht : f.TagsClean) (hs : compile P base f = some s)
    (hb : Placed P base f s) : Valid P s := (compile_spec hP.real h ht hs hb.align hb.space hb.small).1

theorem bytesAt_word (mem : Mem) (b n : Nat) : IsWord (bytesAt mem b n) := by
  induction n generalizing b with
  | zero => intro c hc; cases hc
  | succ n ih =>
    intro c hc
    rcases List.mem_cons.1 hc with rfl | hc
    · have := (mem b).isLt
      exact ⟨by omega, by omega⟩
    · exact ih _ c hc

/-- `Matches(scanner, begin, end)`: with exit masks, on any platform, at any address: true iff the text is in the language. -/
theorem C29_matches_iff_accepted {isa : Isa} (hisa : Platform isa) (hP : Typedef P) (h : f.Good) (ht : f.TagsClean)
    (hs : compile P base f = some s) (hb : Placed P base f s) (mem : Mem) {b e : Nat} (hbe : b ≤ e) :
    (s.scn P).matchesMulti isa (s.exitMasks P) mem b e = true ↔ bytesAt mem b (e - b) ∈ f.Lang := by
  unfold matchesMulti
  rw [C29_valid_scanner hisa hP (C29_compiled_valid hP h ht hs hb) mem hbe reached_initial]
  exact C23_final_iff_accepted hP h ht hs hb (bytesAt_word _ _ _)

/-- `Runner(scanner).Begin().Run(text).End()`: true iff `^text$` is in the language. -/
theorem C30_runner_iff_accepted {isa : Isa} (hisa : Platform isa) (hP : Typedef P) (h : f.Good) (ht : f.TagsClean)
    (hs : compile P base f = some s) (hb : Placed P base f s) (mem : Mem) {b e : Nat} (hbe : b ≤ e) :
    (s.scn P).runnerBeginEndMulti isa (s.exitMasks P) mem b e = true ↔ BeginMark :: bytesAt mem b (e - b) ++ [EndMark] ∈ f.Lang := by
  unfold runnerBeginEndMulti
  simp only
  rw [C29_valid_scanner hisa hP (C29_compiled_valid hP h ht hs hb) mem hbe (reached_closed _ _ reached_initial (by decide)),
    ← C23_final_iff_accepted hP h ht hs hb, List.cons_append, after_cons, after_append]
  · rfl
  · intro c hc
    rcases List.mem_cons.1 hc with rfl | hc
    · exact by decide
    rcases List.mem_append.1 hc with hc | hc
    · exact bytesAt_word _ _ _ c hc
    · rw [List.mem_singleton.1 hc]; decide

theorem start_eq {P : Policy} {s : Multi} (throughBegin : Bool) (w : List Nat) :
    (s.scn P).after (startState (s.scn P) BeginMark throughBegin) w =
      (s.scn P).after (s.scn P).initial ((if throughBegin then [BeginMark] else []) ++ w) := by
  cases throughBegin <;> rfl

theorem mark_word {throughBegin : Bool} {w : List Nat} (hw : IsWord w) :
    IsWord ((if throughBegin then [BeginMark] else []) ++ w) := by
  intro c hc
  rcases List.mem_append.1 hc with hc | hc
  · cases throughBegin with
    | false => cases hc
    | true => rw [List.mem_singleton.1 hc]; decide
  · exact hw c hc

open Classical in
/-- `ShortestPrefix` of a compiled scanner, exit masks included, in terms of the language: a pointer past the shortest prefix `p` of
the text with `^p` (or `p`) accepted; failing that, past the text if the text followed by the end mark is accepted (when asked
for); otherwise null. -/
theorem C32_compiled_shortest_prefix {isa : Isa} (hisa : Platform isa) (hP : Typedef P) (h : f.Good) (ht : f.TagsClean)
    (hs : compile P base f = some s) (hb : Placed P base f s) (mem : Mem) {b e : Nat} (hbe : b ≤ e) (throughBegin throughEnd : Bool) :
    let start := if throughBegin then [BeginMark] else []
    let text := bytesAt mem b (e - b)
    ∃ k, Shortest (fun k => start ++ text.take k ∈ f.Lang) (e - b) k ∧
      (s.scn P).shortestPrefixMulti isa (s.exitMasks P) mem b e throughBegin throughEnd = match k with
      | some k => some (b + k)
      | none => if throughEnd = true ∧ start ++ text ++ [EndMark] ∈ f.Lang then some e else none := by
  intro start text
  have hw : IsWord text := bytesAt_word _ _ _
  have hR := C23_compiled_scanner_decides hP h ht hs hb
  obtain ⟨k, hk, he⟩ := C32_shortest_prefix_exit_masks hisa (s.exitMasks P) (s.scn P) (Reached P s) reached_closed hR.deadSound
    (fun _ h => (C29_compiled_valid hP ‹_› ht hs hb).maskSound hP.real h) reached_initial mem hbe throughBegin throughEnd
  have hlen : text.length = e - b := bytesAt_length ..
  have hfin : ∀ k, ((s.scn P).final ((s.scn P).after (startState (s.scn P) BeginMark throughBegin) (text.take k)) = true) =
      (start ++ text.take k ∈ f.Lang) := by
    intro k
    rw [start_eq, eq_iff_iff]
    exact C23_final_iff_accepted hP h ht hs hb (mark_word fun c hc => hw c (List.mem_of_mem_take hc))
  have hend : ((s.scn P).final ((s.scn P).after (startState (s.scn P) BeginMark throughBegin) (text ++ [EndMark])) = true) ↔
      start ++ text ++ [EndMark] ∈ f.Lang := by
    rw [start_eq, List.append_assoc]
    exact C23_final_iff_accepted hP h ht hs hb (mark_word fun c hc => (List.mem_append.1 hc).elim (hw c) fun hc => by
      rw [List.mem_singleton.1 hc]; decide)
  refine ⟨k, ?_, ?_⟩
  · rw [show bytesAt mem b (e - b) = text from rfl, hlen] at hk
    simp only [hfin] at hk
    exact hk
  · rw [he]
    cases k with
    | some k => rfl
    | none =>
      simp only
      rw [show bytesAt mem b (e - b) = text from rfl, hlen, show b + (e - b) = e by omega]
      by_cases h1 : throughEnd = true ∧ start ++ text ++ [EndMark] ∈ f.Lang
      · rw [if_pos h1, if_pos ⟨h1.1, hend.2 h1.2⟩]
      · rw [if_neg h1, if_neg (fun hx => h1 ⟨hx.1, hend.1 hx.2⟩)]

/-- `LongestPrefix` of a compiled scanner without shortcuts (`ScannerNoMask`, `NonrelocScannerNoMask`), in terms of the language. -/
theorem C31_compiled_longest_prefix_no_mask {isa : Isa} (hisa : Platform isa) (hP : Typedef P) (h0 : P.masks = 0) (h : f.Good)
    (ht : f.TagsClean) (hs : compile P base f = some s) (hb : Placed P base f s) (mem : Mem) {b e : Nat} (hbe : b ≤ e)
    (throughBegin : Bool) :
    ∃ k, Longest (fun k => (if throughBegin then [BeginMark] else []) ++ (bytesAt mem b (e - b)).take k ∈ f.Lang) (e - b) k ∧
      (s.scn P).longestPrefixMulti isa (s.exitMasks P) mem b e throughBegin false = k.map (b + ·) := by
  have hR := C23_compiled_scanner_decides hP h ht hs hb
  have hm : s.exitMasks P = fun _ => none := by funext st; unfold exitMasks; rw [if_pos h0]
  have := C31_longest_prefix_no_shortcuts hisa (s.scn P) (Reached P s) reached_closed hR.deadSound reached_initial mem hbe throughBegin false
  unfold longestSpec at this
  rw [if_neg (by simp)] at this
  obtain ⟨k, hk, he⟩ := this
  have hw : IsWord (bytesAt mem b (e - b)) := bytesAt_word _ _ _
  have hfin : ∀ k, ((s.scn P).final ((s.scn P).after (startState (s.scn P) BeginMark throughBegin) ((bytesAt mem b (e - b)).take k)) = true) =
      ((if throughBegin then [BeginMark] else []) ++ (bytesAt mem b (e - b)).take k ∈ f.Lang) := by
    intro k
    rw [start_eq, eq_iff_iff]
    exact C23_final_iff_accepted hP h ht hs hb (mark_word fun c hc => hw c (List.mem_of_mem_take hc))
  refine ⟨k, ?_, by rw [hm]; exact he⟩
  rw [bytesAt_length] at hk
  simp only [hfin] at hk
  exact hk

/-! ### C37 -/

/-- Going through a stored 32-bit displacement is exact when the two rows are less than 2^31 bytes apart. -/
theorem C37_displacement_exact {x y : Nat} (hx : x < 2 ^ 64) (hy : y < 2 ^ 64) (h1 : x < y + 2 ^ 31) (h2 : y < x + 2 ^ 31) :
    Reloc.relocatable.go x (Reloc.relocatable.diff x y) = y := by
  show (x + Reloc.signExtend ((y + 2 ^ 64 - x) % 2 ^ 64 % 2 ^ 32)) % 2 ^ 64 = y
  rcases Nat.lt_or_ge y x with h | h
  · have e1 : (y + 2 ^ 64 - x) % 2 ^ 64 % 2 ^ 32 = y + 2 ^ 32 - x := by omega
    rw [e1, Reloc.signExtend, if_neg (by omega)]
    omega
  · have e1 : (y + 2 ^ 64 - x) % 2 ^ 64 % 2 ^ 32 = y - x := by omega
    rw [e1, Reloc.signExtend, if_pos (by omega)]
    omega

/-- The comment in the code promises tables of 4 GB; a jump 2^31 bytes forward already lands 2^31 bytes behind instead. -/
theorem C37_limit_is_two_gigabytes {x : Nat} (h1 : 2 ^ 31 ≤ x) (h2 : x < 2 ^ 63) :
    Reloc.relocatable.go x (Reloc.relocatable.diff x (x + 2 ^ 31)) = x - 2 ^ 31 := by
  show (x + Reloc.signExtend ((x + 2 ^ 31 + 2 ^ 64 - x) % 2 ^ 64 % 2 ^ 32)) % 2 ^ 64 = x - 2 ^ 31
  have e : (x + 2 ^ 31 + 2 ^ 64 - x) % 2 ^ 64 % 2 ^ 32 = 2 ^ 31 := by omega
  rw [e, Reloc.signExtend, if_neg (by omega)]
  omega

/-- Going through a stored address is always exact. -/
theorem C37_address_exact (x y : Nat) : Reloc.nonrelocatable.go x (Reloc.nonrelocatable.diff x y) = y := rfl

/-- Copying a scanner, or converting it between relocation strategies (`P'` to `P`, same shortcutting): the copy recognises
the same languages and is again a valid scanner. `Fits`: the new block is 8-aligned and inside the address space, and below
2 GB if it is relocatable. -/
theorem C37_copy_recognizes_the_same {P' : Policy} (hP : Typedef P) (hP' : Typedef P') (hm : P.masks = P'.masks) (hv : Valid P' s)
    (he : s.empty = false) {Ls : List (Language Nat)} (hR : Recognizes P' s Ls) {base : Nat} (hf : Fits P base (deepCopy P P' base s).m) :
    Recognizes P (deepCopy P P' base s) Ls ∧ Valid P (deepCopy P P' base s) := by
  obtain ⟨T, hT⟩ := hv
  have hc := deepCopy_repr hP.real hP'.real hm hT hf
  have hS := (hT.toCore.recognizes he).1 hR
  exact ⟨(hc.toCore.recognizes (deepCopy_m P P' base s).2.2.2.2.1).2 hS, _, hc⟩

/-- ... and visits corresponding states: after every word the two are in rows with the same index. -/
theorem C37_states_correspond {P' : Policy} (hP : Typedef P) (hP' : Typedef P') (hm : P.masks = P'.masks) (hv : Valid P' s)
    {base : Nat} (hf : Fits P base (deepCopy P P' base s).m) {w : List Nat} (hw : IsWord w) :
    (deepCopy P P' base s).stateIndex P (((deepCopy P P' base s).scn P).after ((deepCopy P P' base s).scn P).initial w) =
      s.stateIndex P' ((s.scn P').after (s.scn P').initial w) := by
  obtain ⟨T, hT⟩ := hv
  have hc := deepCopy_repr hP.real hP'.real hm hT hf
  have i1 : (s.scn P').initial = s.indexToState P' T.q0 := hT.initial
  have i2 : ((deepCopy P P' base s).scn P).initial = (deepCopy P P' base s).indexToState P T.q0 := hc.initial
  rw [i1, i2, hT.toCore.after_eq hT.wf.q0_lt hw, hc.toCore.after_eq hT.wf.q0_lt hw, stateIndex_indexToState, stateIndex_indexToState]

/-- Scanners of both kinds compiled from the same automaton visit corresponding states. -/
theorem C37_compiled_states_correspond {P' : Policy} {base' : Nat} {s' : Multi} (hP : Typedef P) (hP' : Typedef P') (h : f.Good)
    (ht : f.TagsClean) (hs : compile P base f = some s) (hs' : compile P' base' f = some s') (hb : Placed P base f s)
    (hb' : Placed P' base' f s') {w : List Nat} (hw : IsWord w) :
    s.stateIndex P ((s.scn P).after (s.scn P).initial w) = s'.stateIndex P' ((s'.scn P').after (s'.scn P').initial w) := by
  obtain ⟨g, hg, r1, -⟩ := compile_repr hP.real h ht hs hb.align hb.space hb.small
  obtain ⟨g', hg', r1', -⟩ := compile_repr hP'.real h ht hs' hb'.align hb'.space hb'.small
  rw [hg] at hg'
  cases hg'
  have i1 : (s.scn P).initial = s.indexToState P (tblOf g).q0 := r1.initial
  have i2 : (s'.scn P').initial = s'.indexToState P' (tblOf g).q0 := r1'.initial
  rw [i1, i2, r1.toCore.after_eq r1.wf.q0_lt hw, r1'.toCore.after_eq r1.wf.q0_lt hw, stateIndex_indexToState, stateIndex_indexToState]

end

/-! ### The hypotheses are met -/

/-- Automata with few states are never too big. -/
theorem canonize_small {f : Fsm} (h : f.Good) (hs : f.size ≤ 17) : ∃ g, f.canonize 0 = some g := by
  obtain ⟨g, hg⟩ := C07_small_never_throws h hs
  rw [complement_eq] at hg
  split at hg
  · rename_i hok
    unfold Fsm.canonize
    split
    · exact ⟨_, rfl⟩
    · simp only
      rw [if_pos hok]
      exact ⟨_, rfl⟩
  · cases hg

/-- The pattern `ab` anywhere in the text. -/
def abAnywhere : Expr := .surround (.lit [97, 98])

theorem abAnywhere_undetermined : ((Fsm.init.appendStr [97, 98]).surround).determined = false := by
  simp [Fsm.surround, Fsm.prependAnything, Fsm.appendAnything, Fsm.appendStr, Fsm.init, Fsm.appendChar]

/-- It compiles, at any reasonable address, into every scanner type. -/
theorem abAnywhere_compiles (P : Policy) (hP : Typedef P) (base : Nat) (ha : base % 8 = 0) (hb : base ≤ 2 ^ 63) :
    ∃ f s, build abAnywhere = some f ∧ compile P base f = some s ∧ Placed P base f s ∧ Recognizes P s [abAnywhere.den] := by
  have ok : abAnywhere.Ok := show IsWord [97, 98] by unfold IsWord; decide
  have hf : build abAnywhere = some (Fsm.init.appendStr [97, 98]).surround := rfl
  have hg := (build_spec abAnywhere ok _ hf).1
  have hn := abAnywhere_undetermined
  cases hs : compile P base (Fsm.init.appendStr [97, 98]).surround with
  | none =>
    exfalso
    unfold compile at hs
    rw [Option.map_eq_none_iff] at hs
    obtain ⟨g, hg⟩ := canonize_small hg (show (Fsm.init.appendStr [97, 98]).surround.size ≤ 17 by decide +kernel)
    rw [hg] at hs; cases hs
  | some s =>
    have hp : Placed P base (Fsm.init.appendStr [97, 98]).surround s :=
      ⟨ha, compile_bufSize hP.real hg hs hb hn, fun h => by rw [hn] at h; cases h⟩
    exact ⟨_, s, hf, hs, hp, C23_expression_to_scanner hP _ ok hf hs hp⟩

/-- A copy of a scanner compiled with the default limits fits anywhere. -/
theorem fits_copy {P P' : Policy} {base base' : Nat} {f : Fsm} {s : Multi} (hP : Typedef P) (h : f.Good)
    (hs : compile P' base' f = some s) (ha : base % 8 = 0) (hb : base ≤ 2 ^ 63) (hn : f.determined = false) :
    Fits P base (deepCopy P P' base s).m := by
  obtain ⟨c1, c2, c3⟩ := compile_counts h hs hn
  obtain ⟨e1, e2, e3, -⟩ := deepCopy_m P P' base s
  exact fits_of_counts hP.real ha hb (by omega) (by omega) (by omega)

example : [120, 97, 98] ∈ abAnywhere.den ∧ [97, 120, 98] ∉ abAnywhere.den := by
  constructor
  · refine ⟨[120, 97, 98], ⟨[120], ?_, [97, 98], rfl, rfl⟩, [], ?_, rfl⟩
    · intro c hc; rw [List.mem_singleton.1 hc]; decide
    · intro c hc; cases hc
  · rintro ⟨x, ⟨u, -, v, hv, rfl⟩, w, -, h⟩
    cases hv
    match u, h with
    | [], h => simp at h
    | [_], h => simp at h
    | _ :: _ :: u, h =>
      have := congrArg List.length h
      simp at this
      omega

/-- Converting the compiled `NonrelocScanner` to a `Scanner` meets the hypotheses of C37. -/
example (base base' : Nat) (ha : base % 8 = 0) (hb : base ≤ 2 ^ 63) (ha' : base' % 8 = 0) (hb' : base' ≤ 2 ^ 63) :
    ∃ f s, build abAnywhere = some f ∧ compile nonrelocPolicy base f = some s ∧
      Recognizes scannerPolicy (deepCopy scannerPolicy nonrelocPolicy base' s) [abAnywhere.den] := by
  have ok : abAnywhere.Ok := show IsWord [97, 98] by unfold IsWord; decide
  have hT : Typedef nonrelocPolicy := .inr (.inr (.inl rfl))
  obtain ⟨f, s, hf, hs, hp, hR⟩ := abAnywhere_compiles nonrelocPolicy hT base ha hb
  obtain ⟨hg, -, -⟩ := build_spec abAnywhere ok _ hf
  have htg := build_tagsIn _ or_mod4 _ _ hf
  obtain ⟨v, he, -⟩ := compile_spec hT.real hg htg hs hp.align hp.space hp.small
  refine ⟨f, s, hf, hs, (C37_copy_recognizes_the_same (.inl rfl) hT rfl v he hR ?_).1⟩
  exact fits_copy (.inl rfl) hg hs ha' hb' (by
    have hf0 : build abAnywhere = some (Fsm.init.appendStr [97, 98]).surround := rfl
    rw [hf0, Option.some.injEq] at hf
    rw [← hf]; exact abAnywhere_undetermined)

end Pire.Props
