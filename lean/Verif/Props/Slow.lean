import Verif.Proofs.SlowIo
import Verif.Props.Simple

/-!
# SlowScanner and its bit set: properties C24, C31, C32, C35, C36, C37, C50

`Slow.compile f` is `f.Compile<SlowScanner>()`. `none` = an access outside of an array or through a null pointer.
-/

namespace Pire

open Spec Scn

/-- `s` recognises the language `L`: it can be fed any word, by `Next` character by character or by `Run` at once, without
reading outside of its arrays; the result is the same; no automaton state is listed twice; `Final` tells whether the word is in `L`,
and `AcceptedRegexps` is `{0}` or empty accordingly. -/
structure Slow.Recognizes (s : Slow) (L : Language Nat) : Prop where
  read : ∀ w, IsWord w → ∃ st b, w.foldlM s.next s.initState = some st ∧ s.run s.initState w = some st ∧ st.states.Nodup ∧
    (∀ q ∈ st.states, q < s.statesCount) ∧ s.final st = some b ∧ (b = true ↔ w ∈ L) ∧ s.acceptedRegexps st = if b then [0] else []

/-- What the scanner is made of: `∃` graph that it holds. -/
def Slow.Valid (s : Slow) : Prop := ∃ n E F, Slow.Repr s n E F

/-- The states a scanner can get into by reading letters. -/
def Slow.Reached (s : Slow) (st : SlowState) : Prop := ∃ w, IsWord w ∧ st = s.scn.after s.scn.initial w

namespace Props

open Fsm Slow Io
open Multi (memBytes memBytes_split length_memBytes)

section
variable {f : Fsm} {s s' : Slow} {n : Nat} {E : Nat → Nat → Nat → Prop} {F : Nat → Prop}

theorem slow_scn_initial (s : Slow) : s.scn.initial = s.initState := by simp only [Slow.scn]
theorem slow_scn_final (s : Slow) (st : SlowState) : s.scn.final st = (s.final st).getD false := by simp only [Slow.scn]

theorem slow_recognizes (h : Slow.Repr s n E F) :
    Slow.Recognizes s {w | ∃ p, F p ∧ Run (fun q c p => c ≠ 257 ∧ E q c p) s.start w p} := by
  refine ⟨fun w hw => ?_⟩
  have hss : s.initState.flags.size = n := (initState_size s).trans h.states
  obtain ⟨st, e1, o, s1, nd, m, -⟩ := after_spec h w _ hw (ok_initState h) hss
  obtain ⟨b, eb, hb⟩ := final_spec h o
  refine ⟨st, b, e1, ?_, ?_, by rw [h.states]; exact o.2, eb, ?_, ?_⟩
  · unfold Slow.run
    rw [runLoop_eq h w _ _ hw (ok_initState h) hss (ok_initState h).1 hss, e1]
  · by_cases hw0 : w = []
    · subst hw0
      rw [List.foldlM_nil] at e1
      cases e1
      exact List.nodup_singleton _
    · exact nd hw0
  · rw [hb]
    constructor
    · rintro ⟨q, hq, hF⟩
      obtain ⟨q0, h0, hr⟩ := (m q).1 hq
      rw [List.mem_singleton.1 h0] at hr
      exact ⟨q, hF, hr⟩
    · rintro ⟨q, hF, hr⟩
      exact ⟨q, (m q).2 ⟨s.start, List.mem_singleton.2 rfl, hr⟩, hF⟩
  · unfold Slow.acceptedRegexps
    rw [eb, Option.getD_some]

theorem slow_recognizes_iff (h : Slow.Repr s n E F) {L : Language Nat} :
    Slow.Recognizes s L ↔ ∀ w, IsWord w → (w ∈ L ↔ ∃ p, F p ∧ Run (fun q c p => c ≠ 257 ∧ E q c p) s.start w p) := by
  have h0 := slow_recognizes h
  constructor
  · intro hR w hw
    obtain ⟨st, b, e1, -, -, -, e2, e3, -⟩ := hR.read w hw
    obtain ⟨st', b', e1', -, -, -, e2', e3', -⟩ := h0.read w hw
    rw [e1, Option.some.injEq] at e1'
    subst e1'
    rw [e2, Option.some.injEq] at e2'
    subst e2'
    rw [← e3, e3']; rfl
  · intro hL
    refine ⟨fun w hw => ?_⟩
    obtain ⟨st, b, e1, e2, e3, e4, e5, e6, e7⟩ := h0.read w hw
    exact ⟨st, b, e1, e2, e3, e4, e5, e6.trans (hL w hw).symm, e7⟩

/-- Scanners that do not differ in what `Next` and `Final` look at. -/
theorem slow_same (hS : Same s s') (hv : s.Valid) {L : Language Nat} (hR : Slow.Recognizes s L) : Slow.Recognizes s' L ∧ s'.Valid := by
  obtain ⟨n, E, F, h⟩ := hv
  have h' := hS.repr h
  refine ⟨(slow_recognizes_iff h').2 ?_, ⟨n, E, F, h'⟩⟩
  rw [hS.start]
  exact (slow_recognizes_iff h).1 hR

theorem slow_compile_repr (h : f.WF) (hs : f.size ≤ 2 ^ 32) (ht : f.TagsIn (· % 256 = 0)) :
    Slow.Repr (Slow.compile f) (f.removeEpsilons.sparse false).size
      (fun q c p => c ≠ 257 ∧ (f.removeEpsilons.sparse false).Edge q c p) (fun q => q ∈ (f.removeEpsilons.sparse false).finals) := by
  refine build_repr (compile_ready h hs) ?_
  have : f.removeEpsilons.TagsIn (· % 256 = 0) := ht.removeEpsilons (fun a b ha hb => by
    rw [show (256 : Nat) = 2 ^ 8 from rfl] at *
    rw [Nat.or_mod_two_pow, ha, hb]; rfl)
  exact this.of_eq rfl

/-- A SlowScanner recognises exactly the language of the automaton, for EVERY automaton with less than 2^32 states (no
determinization is involved, so there is no exponential growth and no failure). Tags of the automaton must be zero modulo
256, see `C24_slow_tag_is_final`. -/
theorem C24_slow_decides (h : f.WF) (hs : f.size ≤ 2 ^ 32) (ht : f.TagsIn (· % 256 = 0)) :
    Slow.Recognizes (Slow.compile f) f.Lang ∧ (Slow.compile f).regexpsCount = 1 ∧ (Slow.compile f).statesCount = f.size := by
  have r := removeEpsilons_spec h
  refine ⟨(slow_recognizes_iff (slow_compile_repr h hs ht)).2 fun w hw => ?_, rfl, r.size⟩
  rw [← lang_removeEpsilons h]
  have hedge : (f.removeEpsilons.sparse false).Edge = f.removeEpsilons.Edge := by
    funext q c p
    rw [eq_iff_iff, sparse_edge r.wf, r.edge, r.dst]
  have hno : ∀ q p, ¬ f.removeEpsilons.Edge q 257 p := fun q p hx => absurd rfl ((r.edge q 257 p).1 hx).1
  rw [hedge]
  constructor
  · rintro ⟨p, hp, hr⟩
    refine ⟨p, hp, ?_⟩
    refine (run_noeps (E := fun q c p => c ≠ 257 ∧ f.removeEpsilons.Edge q c p) fun q p hx => hx.1 rfl).2 ?_
    exact (run_noeps hno).2 hr
  · rintro ⟨p, hp, hr⟩
    refine ⟨p, hp, ?_⟩
    exact (run_noeps hno).1 ((run_noeps (E := fun q c p => c ≠ 257 ∧ f.removeEpsilons.Edge q c p) fun q p hx => hx.1 rfl).1 hr)

/-- Compiled scanners are valid. -/
theorem C24_slow_valid (h : f.WF) (hs : f.size ≤ 2 ^ 32) (ht : f.TagsIn (· % 256 = 0)) : (Slow.compile f).Valid :=
  ⟨_, _, _, slow_compile_repr h hs ht⟩

/-- From the expression the automaton was built from to the scanner. -/
theorem C24_slow_expression (e : Expr) (ok : e.Ok) (hf : Props.build e = some f) (hs : f.size ≤ 2 ^ 32) :
    Slow.Recognizes (Slow.compile f) e.den := by
  obtain ⟨hg, hL, -⟩ := build_spec e ok f hf
  rw [← hL]
  exact (C24_slow_decides hg.wf hs (build_tagsIn _ (fun a b ha hb => by
    rw [show (256 : Nat) = 2 ^ 8 from rfl] at *
    rw [Nat.or_mod_two_pow, ha, hb]; rfl) e f hf)).1

/-! ### Feeding in pieces, searching -/

theorem slow_after (hv : s.Valid) {w : List Nat} (hw : IsWord w) :
    w.foldlM s.next s.initState = some (s.scn.after s.scn.initial w) ∧ ∃ n E F, Slow.Repr s n E F ∧ Ok n (s.scn.after s.scn.initial w) ∧
      (s.scn.after s.scn.initial w).flags.size = n := by
  obtain ⟨n, E, F, h⟩ := hv
  have hss : s.initState.flags.size = n := (initState_size s).trans h.states
  obtain ⟨st, e1, o, s1, nd, m, a⟩ := after_spec h w _ hw (ok_initState h) hss
  rw [slow_scn_initial, a]
  exact ⟨e1, n, E, F, h, o, s1⟩

/-- Feeding a word in two pieces, with `Run` or with `Next`, is the same as feeding it at once. -/
theorem C24_slow_chunks (hv : s.Valid) {u v : List Nat} (hu : IsWord u) (hw : IsWord v) :
    (s.run s.initState u).bind (fun st => s.run st v) = s.run s.initState (u ++ v) ∧
    (s.run s.initState u).bind (fun st => v.foldlM s.next st) = s.run s.initState (u ++ v) ∧ (s.run s.initState (u ++ v)).isSome = true := by
  obtain ⟨e1, n, E, F, h, o, hs⟩ := slow_after hv hu
  have hss : s.initState.flags.size = n := (initState_size s).trans h.states
  have huv : IsWord (u ++ v) := fun c hc => (List.mem_append.1 hc).elim (hu c) (hw c)
  have er : ∀ w, IsWord w → s.run s.initState w = w.foldlM s.next s.initState := fun w hw =>
    runLoop_eq h w _ _ hw (ok_initState h) hss (ok_initState h).1 hss
  have ev : s.run (s.scn.after s.scn.initial u) v = v.foldlM s.next (s.scn.after s.scn.initial u) :=
    runLoop_eq h v _ _ hw o hs (ok_initState h).1 hss
  rw [er u hu, er _ huv, List.foldlM_append, e1, Option.bind_some, Option.bind_eq_bind, Option.bind_some, ev]
  refine ⟨rfl, rfl, ?_⟩
  obtain ⟨st', e2, -⟩ := after_spec h v _ hw o hs
  rw [e2]; rfl

/-- `Final` after a word, for the scanner interface used by the searches. -/
theorem slow_final_iff {L : Language Nat} (hv : s.Valid) (hR : Slow.Recognizes s L) {w : List Nat} (hw : IsWord w) :
    s.scn.final (s.scn.after s.scn.initial w) = true ↔ w ∈ L := by
  obtain ⟨e1, -⟩ := slow_after hv hw
  obtain ⟨st, b, e2, -, -, -, e3, e4, -⟩ := hR.read w hw
  rw [e1, Option.some.injEq] at e2
  rw [slow_scn_final, e2, e3, Option.getD_some]; exact e4

theorem slow_reached_closed : Closed s.scn (Slow.Reached s) := by
  rintro st c ⟨w, hw, rfl⟩ hc
  refine ⟨w ++ [c], fun x hx => (List.mem_append.1 hx).elim (hw x) fun hx => by rw [List.mem_singleton.1 hx]; exact hc, ?_⟩
  rw [after_append]; rfl

theorem slow_reached_initial : Slow.Reached s s.scn.initial := ⟨[], fun _ h => absurd h (by simp), rfl⟩

theorem slow_dead_sound : DeadSound s.scn (Slow.Reached s) := fun st _ h => by
  rw [show s.scn.dead st = false by simp only [Slow.scn]] at h; cases h

theorem slow_start_eq (c : Nat) (throughBegin : Bool) (w : List Nat) :
    s.scn.after (startState s.scn c throughBegin) w = s.scn.after s.scn.initial ((if throughBegin then [c] else []) ++ w) := by
  cases throughBegin <;> rfl

/-- `LongestPrefix`, in terms of the language. -/
theorem C31_slow_longest_prefix {L : Language Nat} (hv : s.Valid) (hR : Slow.Recognizes s L) (mem : Mem) {b e : Nat} (hbe : b ≤ e) (throughBegin : Bool) :
    ∃ k, Longest (fun k => (if throughBegin then [BeginMark] else []) ++ (bytesAt mem b (e - b)).take k ∈ L) (e - b) k ∧
      s.scn.longestPrefix mem b e throughBegin false = k.map (b + ·) := by
  have := C31_longest_prefix s.scn (Slow.Reached s) slow_reached_closed slow_dead_sound slow_reached_initial mem hbe throughBegin false
  unfold longestSpec at this
  rw [if_neg (by simp)] at this
  obtain ⟨k, hk, he⟩ := this
  have hw : IsWord (bytesAt mem b (e - b)) := bytesAt_word _ _ _
  have hfin : ∀ k, (s.scn.final (s.scn.after (startState s.scn BeginMark throughBegin) ((bytesAt mem b (e - b)).take k)) = true) =
      ((if throughBegin then [BeginMark] else []) ++ (bytesAt mem b (e - b)).take k ∈ L) := by
    intro k
    rw [slow_start_eq, eq_iff_iff]
    exact slow_final_iff hv hR (mark_word fun c hc => hw c (List.mem_of_mem_take hc))
  refine ⟨k, ?_, he⟩
  rw [bytesAt_length] at hk
  simp only [hfin] at hk
  exact hk

/-- `ShortestPrefix`, in terms of the language. -/
theorem C32_slow_shortest_prefix {L : Language Nat} (hv : s.Valid) (hR : Slow.Recognizes s L) (mem : Mem) {b e : Nat} (hbe : b ≤ e) (throughBegin : Bool) :
    ∃ k, Shortest (fun k => (if throughBegin then [BeginMark] else []) ++ (bytesAt mem b (e - b)).take k ∈ L) (e - b) k ∧
      s.scn.shortestPrefix mem b e throughBegin false = k.map (b + ·) := by
  obtain ⟨k, hk, he⟩ := C32_shortest_prefix s.scn (Slow.Reached s) slow_reached_closed slow_dead_sound slow_reached_initial mem hbe throughBegin false
  have hw : IsWord (bytesAt mem b (e - b)) := bytesAt_word _ _ _
  have hfin : ∀ k, (s.scn.final (s.scn.after (startState s.scn BeginMark throughBegin) ((bytesAt mem b (e - b)).take k)) = true) =
      ((if throughBegin then [BeginMark] else []) ++ (bytesAt mem b (e - b)).take k ∈ L) := by
    intro k
    rw [slow_start_eq, eq_iff_iff]
    exact slow_final_iff hv hR (mark_word fun c hc => hw c (List.mem_of_mem_take hc))
  refine ⟨k, ?_, ?_⟩
  · rw [bytesAt_length] at hk
    simp only [hfin] at hk
    exact hk
  · rw [he]
    cases k with
    | some k => rfl
    | none => rfl

/-! ### Copies (C37) -/

/-- The scanner owns its tables (it was compiled or loaded), or is a mapped one. -/
def _root_.Pire.Slow.Complete (s : Slow) : Prop := (s.vec ≠ [] ∧ s.jumps = .vecs s.vec) ∨ (s.vec = [] ∧ ∃ p j, s.jumps = .flat p j)

/-- A copy of a compiled, loaded or mapped scanner recognises the same language. -/
theorem C37_slow_copy {L : Language Nat} (hv : s.Valid) (hR : Slow.Recognizes s L) (hc : s.Complete) :
    Slow.Recognizes (copyCtor s) L ∧ (copyCtor s).Valid := by
  refine slow_same ?_ hv hR
  rcases hc with ⟨h1, h2⟩ | ⟨h1, p, j, h2⟩
  · unfold copyCtor
    rw [if_neg h1]
    refine ⟨rfl, rfl, rfl, rfl, fun q l => ?_⟩
    unfold targets
    rw [h2]
  · unfold copyCtor
    rw [if_pos h1]
    refine ⟨rfl, rfl, rfl, rfl, fun q l => ?_⟩
    unfold targets
    rw [h2]

/-- Compiled scanners are complete. -/
theorem C37_slow_compiled_complete (h : f.WF) (hs : f.size ≤ 2 ^ 32) : (Slow.compile f).Complete := by
  refine .inl ⟨fun hx => ?_, rfl⟩
  have r := compile_ready h hs
  have h1 := congrArg List.length hx
  change (Slow.build _).vec.length = 0 at h1
  rw [build_vec, jumpTable_len] at h1
  have h2 := r.wf.init_lt
  obtain ⟨e, he, -⟩ := r.cls (c := 97) (by decide)
  have h3 := r.lwf.idx_lt e he
  have : 0 < ((f.removeEpsilons.sparse false).size * (f.removeEpsilons.sparse false).letters.size) :=
    Nat.mul_pos (by omega) (by unfold Partition.size; omega)
  omega

/-- DEFECT: in a copy of a default-constructed SlowScanner all pointers to jumps are null: its `Next` dereferences them, on any
letter. -/
theorem C37_slow_copy_of_default_is_broken {c : Nat} (hc : IsLetter c) :
    (null.aliased.copyCtor).next (null.aliased.copyCtor).initState c = none := by
  have hM : MaxChar = 264 := rfl
  obtain ⟨l, hl⟩ : ∃ l, null.aliased.copyCtor.translate c = some l := by
    have hlen : null.aliased.copyCtor.letters.length = MaxChar := by
      show (letterTable _).length = _
      exact letterTable_len _
    unfold Slow.translate
    have : c < null.aliased.copyCtor.letters.length := by rw [hlen, hM]; exact hc.1
    exact ⟨_, List.getElem?_eq_getElem this⟩
  have ht : ∀ q l, null.aliased.copyCtor.targets q l = none := fun q l => rfl
  unfold Slow.next nextInto nextTranslated
  rw [hl]
  simp only [Option.bind_eq_bind, Option.bind_some]
  show List.foldlM _ _ [null.aliased.copyCtor.start] = none
  rw [List.foldlM_cons, ht]
  rfl

/-! ### Save, Load, Mmap -/

theorem slow_storable (h : f.WF) (hs : f.size ≤ 2 ^ 32) (ht : 4 * (Slow.compile f).vec.flatten.length < 2 ^ 64) : Storable (Slow.compile f) := by
  have r := compile_ready h hs
  have hsz : (f.removeEpsilons.sparse false).size ≤ 2 ^ 32 := r.small
  have hM : MaxChar = 264 := rfl
  set g := f.removeEpsilons.sparse false with hg
  have hvec : (Slow.build g).vec = jumpTable g := build_vec g
  have hlet : g.letters.size ≤ 264 := by
    have hsub : (g.letters.set.map PClass.rep) ⊆ List.range 264 := fun x hx => by
      obtain ⟨e, he, rfl⟩ := List.mem_map.1 hx
      rw [List.mem_range]; exact (r.rep_letter he).1
    have hnd : (g.letters.set.map PClass.rep).Nodup := by
      rw [List.Nodup, List.pairwise_map]
      exact r.lwf.sorted.imp fun h => Nat.ne_of_lt h
    have := (hnd.subperm hsub).length_le
    rwa [List.length_map, List.length_range] at this
  have hle : g.size * g.letters.size < 2 ^ 64 := by
    have := Nat.mul_le_mul hsz hlet
    omega
  refine ⟨?_, ?_, ?_, letterTable_len _, ?_, ?_, ?_, hle, ht, ?_, rfl, rfl⟩
  · show g.size < _; omega
  · show g.letters.size < _; omega
  · have := r.wf.init_lt
    show g.initial < _; omega
  · intro l hl
    obtain ⟨c, hc, hl⟩ := List.mem_iff_getElem.1 hl
    have hc' : c < (letterTable g.letters).length := hc
    have hcc : c < 264 := by rw [letterTable_len, hM] at hc'; exact hc'
    by_cases h257 : c = 257
    · have : (letterTable g.letters)[c]? = some 0 := by
        rw [letterTable_eq]
        refine foldl_sets _ (fun j hj => ?_) _ (.inl ?_)
        · exfalso
          unfold letterWrites at hj
          rw [List.mem_flatMap] at hj
          obtain ⟨e, he, hj⟩ := hj
          rw [List.mem_map] at hj
          obtain ⟨c', hc', hj⟩ := hj
          injection hj with h1 _
          have := (r.all c').1 (by rw [r.lwf.inv_of_mem he hc']; rfl)
          exact this.2 (h1.trans h257)
        · rw [List.getElem?_replicate, if_pos (by rw [hM]; exact hcc)]
      have h2 : (letterTable g.letters)[c]? = some l := by rw [List.getElem?_eq_getElem hc']; exact congrArg some hl
      rw [this, Option.some.injEq] at h2
      omega
    · obtain ⟨e, he, hm, -⟩ := r.cls ⟨hcc, h257⟩
      have h1 := r.letter he hm
      have h2 : (letterTable g.letters)[c]? = some l := by rw [List.getElem?_eq_getElem hc']; exact congrArg some hl
      rw [h1, Option.some.injEq] at h2
      have := r.lwf.idx_lt e he
      unfold Partition.size at hlet
      omega
  · show ((List.range g.size).map _).length = g.size
    rw [List.length_map, List.length_range]
  · show (Slow.build g).vec.length = _
    rw [hvec, jumpTable_len]; rfl
  · intro x hx
    have hx' : x ∈ (Slow.build g).vec.flatten := hx
    rw [hvec, List.mem_flatten] at hx'
    obtain ⟨ts, hts, hx⟩ := hx'
    obtain ⟨i, hi, rfl⟩ := List.mem_iff_getElem.1 hts
    have h1 := foldl_push (jumpWrites g) i (List.replicate (g.size * g.letters.size) [])
    have h2 : (jumpTable g)[i]? = some (jumpTable g)[i] := List.getElem?_eq_getElem hi
    unfold jumpTable at h2
    rw [h1, List.getElem?_replicate, if_pos (by rw [← jumpTable_len]; exact hi), Option.map_some, Option.some.injEq, List.nil_append] at h2
    have hx2 : x ∈ ((jumpWrites g).filter fun w => w.1 = i).map Prod.snd := by rw [h2]; exact hx
    obtain ⟨w, hw, rfl⟩ := List.mem_map.1 hx2
    have hw := (List.mem_filter.1 hw).1
    unfold jumpWrites at hw
    rw [List.mem_flatMap] at hw
    obtain ⟨fr, -, hw⟩ := hw
    rw [List.mem_flatMap] at hw
    obtain ⟨e, -, hw⟩ := hw
    obtain ⟨d, -, rfl⟩ := List.mem_map.1 hw
    exact Nat.mod_lt _ (by omega)

/-- Saving a compiled scanner and loading it gives back the very same scanner, and exactly the written bytes are consumed.
(The jumps have to fit in memory.) -/
theorem C35_slow_round_trip (h : f.WF) (hs : f.size ≤ 2 ^ 32) (ht : 4 * (Slow.compile f).vec.flatten.length < 2 ^ 64) (null : Slow) (rest : Bytes) :
    Slow.load null ((Slow.compile f).save ++ rest) = some (Slow.compile f, rest) := load_save (slow_storable h hs ht) rest

/-- A saved empty scanner is loaded as the empty scanner. -/
theorem C35_slow_empty_round_trip (hn : s.statesCount < 2 ^ 64) (hk : s.lettersCount < 2 ^ 64) (hi : s.start < 2 ^ 64)
    (he : s.empty = true) (null : Slow) (rest : Bytes) : Slow.load null (s.save ++ rest) = some (null.aliased, rest) :=
  load_save_empty hn hk hi he rest

/-- Loading never looks beyond what it consumes. -/
theorem C35_slow_rest_is_untouched {null s' : Slow} {b rest : Bytes} (h : Slow.load null b = some (s', rest)) :
    ∃ used, b = used ++ rest ∧ ∀ rest', Slow.load null (used ++ rest') = some (s', rest') := Slow.reader_load null b s' rest h

/-- A stream cut anywhere is rejected. -/
theorem C35_slow_truncated_rejected (h : f.WF) (hs : f.size ≤ 2 ^ 32) (ht : 4 * (Slow.compile f).vec.flatten.length < 2 ^ 64) (null : Slow)
    {k : Nat} (hk : k < (Slow.compile f).save.length) : Slow.load null ((Slow.compile f).save.take k) = none := by
  have e1 := C35_slow_round_trip h hs ht null []
  rw [List.append_nil] at e1
  exact (Slow.reader_load null).truncated e1 hk

/-- What `Load` insists on, for any stream at all. -/
theorem C35_slow_accepted_streams {null s' : Slow} {b rest : Bytes} (h : Slow.load null b = some (s', rest)) :
    24 ≤ b.length ∧ (Header.ofBytes (b.take 24)).valid 3 24 = true := by
  unfold Slow.load at h
  rw [Option.bind_eq_some_iff] at h
  obtain ⟨⟨hd, r⟩, h1, -⟩ := h
  obtain ⟨x, y, e1, e2, e3, e4, e5⟩ := loadHeader_some h1
  have hx : x.length = 24 := e2
  have : b.take 24 = x := by rw [e1, List.append_assoc, List.take_left' hx]
  rw [this, ← e4]
  exact ⟨by rw [e1]; simp only [List.length_append]; omega, e5⟩

/-- Mapping the saved bytes of a compiled scanner gives a scanner with the same language, and a pointer just past those bytes. -/
theorem C36_slow_mmap_saved {L : Language Nat} (h : f.WF) (hs : f.size ≤ 2 ^ 32) (ht : 4 * (Slow.compile f).vec.flatten.length < 2 ^ 64)
    (hv : (Slow.compile f).Valid) (hR : Slow.Recognizes (Slow.compile f) L) (self : Slow) {mem : Mem} {ptr size : Nat} (ha : ptr % 8 = 0)
    (hsp : ptr + 8 * size < 2 ^ 64) (hmem : memBytes mem ptr (Slow.compile f).save.length = (Slow.compile f).save)
    (hsz : (Slow.compile f).save.length ≤ size) :
    ∃ s', Slow.mmap self mem ptr size = .ok s' (ptr + (Slow.compile f).save.length) ∧ Slow.Recognizes s' L ∧ s'.Valid ∧ s'.Complete := by
  have hst := slow_storable h hs ht
  have hl := length_save hst
  have e := mmap_save hst self ha hsp hmem (by omega) (by omega) (by omega) (by omega)
  obtain ⟨r1, r2⟩ := slow_same (mapped_same hst.jumps) hv hR
  exact ⟨_, e, r1, r2, .inr ⟨rfl, _, _, rfl⟩⟩

/-- A misaligned pointer is rejected. -/
theorem C36_slow_misaligned_rejected {self : Slow} {mem : Mem} {ptr size : Nat} (ha : ptr % 8 ≠ 0) :
    Slow.mmap self mem ptr size = .throws := by unfold Slow.mmap Slow.mapIn; rw [if_pos ha]

/-- DEFECT: the last bytes of the arrays of jumps may be missing from the input: `Mmap` accepts it nevertheless. -/
theorem C36_slow_short_input_accepted (h : f.WF) (hs : f.size ≤ 2 ^ 32) (ht : 4 * (Slow.compile f).vec.flatten.length < 2 ^ 64)
    (self : Slow) {mem : Mem} {ptr size : Nat} (ha : ptr % 8 = 0) (hsp : ptr + 8 * size < 2 ^ 64)
    (hmem : memBytes mem ptr (Slow.compile f).save.length = (Slow.compile f).save)
    (h1 : size < (Slow.compile f).save.length) (h2 : (Slow.compile f).save.length ≤ size + 3) (h3 : 0 < (Slow.compile f).vec.flatten.length) :
    ∃ s', Slow.mmap self mem ptr size = .ok s' (ptr + (Slow.compile f).save.length) ∧ ptr + size < ptr + (Slow.compile f).save.length := by
  have hst := slow_storable h hs ht
  have hl := length_save hst
  have ht1 := tail_lt (Slow.compile f).statesCount
  have ht2 := tail_lt (4 * (Slow.compile f).vec.flatten.length)
  have hmod := add_tail_mod (4 * (Slow.compile f).vec.flatten.length)
  exact ⟨_, mmap_save hst self ha hsp hmem (by omega) (by omega) (by omega) (by omega), by omega⟩

/-! ### The bit set (C50) -/

/-- What can be done to a bit set. -/
inductive BitOp
  | set (p : Nat)
  | reset (p : Nat)
  | clear

/-- The code. -/
def BitOp.apply (b : BitSet) : BitOp → Option BitSet
  | .set p => b.set p
  | .reset p => b.reset p
  | .clear => some b.clear

/-- What is meant: a set of numbers. -/
def BitOp.meant (S : Finset Nat) : BitOp → Finset Nat
  | .set p => Insert.insert p S
  | .reset p => S.erase p
  | .clear => ∅

/-- The position is inside of the bit set. -/
def BitOp.Inside (n : Nat) : BitOp → Prop
  | .set p => p < n
  | .reset p => p < n
  | .clear => True

/-- Whatever is done to a bit set with `n` bits: nothing outside of the vector is accessed, `Size` stays, and `Test` tells
exactly the positions set and not reset or cleared since. -/
theorem C50_bitset (n : Nat) (ops : List BitOp) (hops : ∀ o ∈ ops, o.Inside n) :
    ∃ b, ops.foldlM BitOp.apply (BitSet.ofSize n) = some b ∧ b.size = n ∧
      ∀ p < n, b.test p = some (decide (p ∈ ops.foldl BitOp.meant ∅)) := by
  have gen : ∀ (ops : List BitOp), (∀ o ∈ ops, o.Inside n) → ∀ (b : BitSet) (S : Finset Nat),
      b.data.length = BitSet.roundUp (n + 1) + 1 → b.size = n → (∀ p < n, b.bit p = decide (p ∈ S)) →
      ∃ b', ops.foldlM BitOp.apply b = some b' ∧ b'.data.length = BitSet.roundUp (n + 1) + 1 ∧ b'.size = n ∧
        ∀ p < n, b'.bit p = decide (p ∈ ops.foldl BitOp.meant S) := by
    intro ops
    induction ops with
    | nil => intro _ b S h1 h2 h3; exact ⟨b, rfl, h1, h2, h3⟩
    | cons o ops ih =>
      intro ho b S h1 h2 h3
      have hstep : ∃ b1, o.apply b = some b1 ∧ b1.data.length = BitSet.roundUp (n + 1) + 1 ∧ b1.size = n ∧
          ∀ p < n, b1.bit p = decide (p ∈ o.meant S) := by
        have hin := ho o (List.mem_cons_self ..)
        cases o with
        | set p =>
          obtain ⟨b1, e, g1, g2, g3⟩ := BitSet.set_spec (BitSet.inside h1 (Nat.le_of_lt hin))
          refine ⟨b1, e, g2.trans h1, g1.trans h2, fun q hq => ?_⟩
          rw [g3, h3 q hq, ← Bool.decide_or]
          apply decide_eq_decide.2
          rw [BitOp.meant, Finset.mem_insert]
        | reset p =>
          obtain ⟨b1, e, g1, g2, g3⟩ := BitSet.reset_spec (BitSet.inside h1 (Nat.le_of_lt hin))
          refine ⟨b1, e, g2.trans h1, g1.trans h2, fun q hq => ?_⟩
          rw [g3, h3 q hq, ← decide_not, ← Bool.decide_and]
          apply decide_eq_decide.2
          rw [BitOp.meant, Finset.mem_erase]
        | clear =>
          refine ⟨b.clear, rfl, ?_, h2, fun q hq => ?_⟩
          · change (List.replicate _ _).length = _
            rw [List.length_replicate]; exact h1
          · rw [BitSet.bit_clear]; simp [BitOp.meant]
      obtain ⟨b1, e, g1, g2, g3⟩ := hstep
      obtain ⟨b', e', r⟩ := ih (fun o ho' => ho o (List.mem_cons_of_mem _ ho')) b1 _ g1 g2 g3
      exact ⟨b', by rw [List.foldlM_cons, e]; exact e', r⟩
  obtain ⟨g1, g2, g3⟩ := BitSet.ofSize_spec n
  obtain ⟨b, e, l, hs, hb⟩ := gen ops hops _ ∅ g2 g1 fun p hp => by
    rw [g3]; simp; omega
  exact ⟨b, e, hs, fun p hp => by rw [BitSet.test_eq (BitSet.inside l (Nat.le_of_lt hp)), hb p hp]⟩

/-- `Resize` to any size: nothing outside of the vector is accessed; below the new size every bit tests as before, and a bit
the old vector did not have tests as zero; `Size` stays as it was. -/
theorem C50_resize (b : BitSet) (n : Nat) :
    ∃ b', b.resize n = some b' ∧ b'.size = b.size ∧ ∀ p < n, b'.test p = some ((b.test p).getD false) := by
  obtain ⟨b', e, h1, h2, h3, _⟩ := BitSet.resize_spec b n
  refine ⟨b', e, h1, fun p hp => ?_⟩
  rw [BitSet.test_eq (by omega), h3 p hp]
  by_cases h : p / 8 < b.data.length
  · rw [BitSet.test_eq h, Option.getD_some]
  · have h' : b.data.length ≤ p / 8 := by omega
    rw [BitSet.test, BitSet.bit, List.getD_eq_getElem?_getD, List.getElem?_eq_none h']
    simp

/-- DEFECT: after `Resize` to a bigger size, `Size` is still the old one, and a bit that was never set tests as set. -/
theorem C50_resize_defect : ∃ b, (BitSet.ofSize 8).resize 16 = some b ∧ b.size = 8 ∧ b.test 8 = some true :=
  ⟨_, rfl, rfl, by decide⟩

end

/-! ### The hypotheses are met -/

example : ∃ b, [BitOp.set 3, .set 7, .reset 3].foldlM BitOp.apply (BitSet.ofSize 10) = some b ∧ b.test 7 = some true ∧ b.test 3 = some false :=
  ⟨_, rfl, by decide, by decide⟩

theorem abAnywhere_slow_size : ∀ f, Props.build abAnywhere = some f → f.size ≤ 17 := by
  intro f hf
  have : Props.build abAnywhere = some (Fsm.init.appendStr [97, 98]).surround := rfl
  rw [this, Option.some.injEq] at hf
  rw [← hf]; decide +kernel

/-- The pattern `ab`, searched for anywhere: compiled, copied. -/
example : ∃ f, Props.build abAnywhere = some f ∧ Slow.Recognizes (Slow.compile f) abAnywhere.den ∧
    Slow.Recognizes (copyCtor (Slow.compile f)) abAnywhere.den := by
  have ok : abAnywhere.Ok := show IsWord [97, 98] by unfold IsWord; decide
  have hf : Props.build abAnywhere = some (Fsm.init.appendStr [97, 98]).surround := rfl
  have hg := (build_spec abAnywhere ok _ hf).1
  have hs : (Fsm.init.appendStr [97, 98]).surround.size ≤ 2 ^ 32 := le_trans (abAnywhere_slow_size _ hf) (by omega)
  have hR := C24_slow_expression abAnywhere ok hf hs
  have ht := build_tagsIn (· % 256 = 0) (fun a b ha hb => by
    rw [show (256 : Nat) = 2 ^ 8 from rfl] at *
    rw [Nat.or_mod_two_pow, ha, hb]; rfl) abAnywhere _ hf
  exact ⟨_, hf, hR, (C37_slow_copy (C24_slow_valid hg.wf hs ht) hR (C37_slow_compiled_complete hg.wf hs)).1⟩

/-- DEFECT (outside of the hypotheses of `C24_slow_decides`): a state with a nonzero tag is `Final`, even if it is not final in
the automaton. -/
theorem C24_slow_tag_is_final : ∃ f : Fsm, f.Lang = 0 ∧ f.TagsIn (fun t => t % 4 = 0) ∧
    (Slow.compile f).final (Slow.compile f).initState = some true := by
  refine ⟨{ Fsm.makeFalse with tags := fun q => if q = 0 then some 4 else none }, ?_, ?_, ?_⟩
  · exact lang_makeFalse
  · intro q t hq
    simp only at hq
    split at hq
    · cases hq; rfl
    · cases hq
  · decide +kernel

end Props
end Pire
