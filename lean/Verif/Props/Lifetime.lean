import Verif.Proofs.LifetimeKinds

/-!
# Scanner variables are values: property C62

A program makes, copies, assigns, moves, loads, maps and destroys scanners in any order, in one memory where what is freed gets overwritten. The theorems are about every
such program (a list of operations, `Life.Op`) that respects `LegalRun`: variables are used while they exist, the allocator gives fresh memory, mapped memory stays
mapped as long as it is used. `values` is what the program means when variables are just values.
-/

namespace Pire
namespace Props

open Spec Life Multi

/-- `Scanner` (all four typedefs, and `HalfFinalScanner`, which has no other memory): the program never reads freed memory and frees nothing twice, and in the end every
variable that exists recognises what it should recognise by its value: no operation on one variable has changed another. What is still allocated belongs to existing
variables. `nul`: the static empty scanner. -/
theorem C62_scanner {P : Policy} (hP : Typedef P) {nb : Nat} {nul : Multi} (hn : Multi.null P nb = some nul) (ha : nb % 8 = 0) (hb : nb ≤ 2 ^ 63)
    {w : World Multi} (hs : Start (multiKind P nul) w) {ops : List (Op Multi (List (Language Nat)))}
    (hl : LegalRun (multiKind P nul) (MultiBuilt P) (fun s Ls => Valid P s ∧ Recognizes P s Ls) w ops) :
    ∃ w', run (multiKind P nul) w ops = some w' ∧
      (∀ v, values [] ops v = none ↔ w'.view (multiKind P nul) v = none) ∧
      (∀ v Ls, values [] ops v = some Ls → ∃ s, w'.view (multiKind P nul) v = some s ∧ Valid P s ∧ Recognizes P s Ls) ∧
      (∀ b ∈ w'.owned, ∃ v y, w'.vars v = some y ∧ y.buffer = some b.1) := by
  obtain ⟨w', h1, h2⟩ := lifetimes (multi_laws hP nul) (C26_empty_scanner hP hn ha hb).2 hs hl
  exact ⟨w', h1, fun v => h2.view.1, fun v Ls hv => h2.view.2 Ls hv, h2.noleak⟩

/-- `SimpleScanner`. `e` is what the static empty scanner recognises (`0` if it has been built by the default constructor, `C62_simple_null`). -/
theorem C62_simple {nul : Simple} {e : Language Nat} (hn : (∃ T, Simple.Repr nul T) ∧ Simple.Recognizes nul e)
    {w : World Simple} (hs : Start (simpleKind nul) w) {ops : List (Op Simple (Language Nat))}
    (hl : LegalRun (simpleKind nul) (fun s => s.empty = false) (fun s L => (∃ T, Simple.Repr s T) ∧ Simple.Recognizes s L) w ops) :
    ∃ w', run (simpleKind nul) w ops = some w' ∧
      (∀ v, values e ops v = none ↔ w'.view (simpleKind nul) v = none) ∧
      (∀ v L, values e ops v = some L → ∃ s, w'.view (simpleKind nul) v = some s ∧ Simple.Recognizes s L) ∧
      (∀ b ∈ w'.owned, ∃ v y, w'.vars v = some y ∧ y.buffer = some b.1) := by
  obtain ⟨w', h1, h2⟩ := lifetimes (simple_laws nul) hn hs hl
  refine ⟨w', h1, fun v => h2.view.1, fun v L hv => ?_, h2.noleak⟩
  obtain ⟨s, g1, -, g2⟩ := h2.view.2 L hv
  exact ⟨s, g1, g2⟩

/-- `LoadedScanner`: `CapturingScanner`, `CountingScanner`, `AdvancedCountingScanner`. The value of a variable is a scanner it cannot be told from. -/
theorem C62_loaded {nul : Loaded} (hn : LoadedMeans nul nul) {w : World Loaded} (hs : Start (loadedKind nul) w) {ops : List (Op Loaded Loaded)}
    (hl : LegalRun (loadedKind nul) LoadedBuilt LoadedMeans w ops) :
    ∃ w', run (loadedKind nul) w ops = some w' ∧
      (∀ v, values nul ops v = none ↔ w'.view (loadedKind nul) v = none) ∧
      (∀ v x, values nul ops v = some x → ∃ s, w'.view (loadedKind nul) v = some s ∧ Loaded.Alike x s ∧ s.reCount = x.reCount) ∧
      (∀ b ∈ w'.owned, ∃ v y, w'.vars v = some y ∧ y.buffer = some b.1) := by
  obtain ⟨w', h1, h2⟩ := lifetimes (loaded_laws nul) hn hs hl
  refine ⟨w', h1, fun v => h2.view.1, fun v L hv => ?_, h2.noleak⟩
  obtain ⟨s, g1, -, g2⟩ := h2.view.2 L hv
  exact ⟨s, g1, g2⟩

/-- When no variable exists any more, nothing is allocated. -/
theorem C62_no_leak {α V : Type} {w : World α} (h : ∀ b ∈ w.owned, ∃ v y, w.vars v = some y ∧ y.buffer = some b.1) (hv : ∀ v, w.vars v = none) : w.owned = [] := by
  rw [List.eq_nil_iff_forall_not_mem]
  intro b hb
  obtain ⟨v, y, h1, -⟩ := h b hb
  rw [hv v] at h1
  cases h1

/-! ### Assignment, move, Load, Mmap

They are programs themselves; here: after any legal program they are legal, and what they do to the values. With the theorems above: they work. -/

section
variable {α V : Type} {K : Kind α} {built : α → Prop} {means : α → V → Prop} {e : V} {w w1 : World α} {ops : List (Op α V)}

theorem isSome_ne {v t : Nat} (ht : w1.vars t = none) (hv : (w1.vars v).isSome) : v ≠ t := by
  rintro rfl
  rw [ht] at hv
  cases hv

/-- `v = u`: all other variables keep their values (`t`: the temporary). `v` and `u` may be the same variable. -/
theorem C62_assignment (hl : LegalRun K built means w ops) (hr : run K w ops = some w1) {t v u a : Nat} {y : Var α} (ht : w1.vars t = none) (hv : (w1.vars v).isSome)
    (hu : w1.vars u = some y) (hf : y.buffer.isSome → Fresh w1 a (K.room y.obj)) (junk : Mem) :
    LegalRun K built means w (ops ++ assign t v u a junk) ∧
      ∀ x, values e (ops ++ assign t v u a junk) x = if x = v then values e ops u else if x = t then none else values e ops x := by
  have hvt := isSome_ne ht hv
  refine ⟨legalRun_append.2 ⟨hl, fun w' hw => ?_⟩, fun x => ?_⟩
  · rw [hr] at hw
    cases hw
    refine ⟨⟨ht, y, hu, hf⟩, fun w2 h2 => ?_⟩
    have hvars : ∃ z, w2.vars = Function.update w1.vars t (some z) := by
      unfold Life.step at h2
      dsimp only at h2
      rw [hu, Option.bind_some] at h2
      cases hb : y.buffer with
      | none =>
        rw [hb] at h2
        cases h2
        exact ⟨y, rfl⟩
      | some c =>
        rw [hb] at h2
        dsimp only at h2
        split at h2
        · cases h2
          exact ⟨_, rfl⟩
        · cases h2
    obtain ⟨z, hz⟩ := hvars
    refine ⟨⟨by rw [hz]; simp, by rw [hz, Function.update_of_ne hvt]; exact hv⟩, fun w3 h3 => ?_⟩
    cases h3
    refine ⟨?_, fun _ _ => trivial⟩
    show (Function.update (Function.update w2.vars t (w2.vars v)) v (w2.vars t) t).isSome = true
    rw [Function.update_of_ne hvt.symm, Function.update_self, hz, Function.update_of_ne hvt]
    exact hv
  · unfold values assign
    rw [List.foldl_append]
    generalize ops.foldl (valueStep e) (fun _ => none) = σ
    show Function.update (Function.update (Function.update (Function.update σ t (σ u)) t (Function.update σ t (σ u) v)) v
      (Function.update σ t (σ u) t)) t none x = _
    by_cases hx : x = t
    · subst hx
      rw [Function.update_self, if_neg hvt.symm, if_pos rfl]
    · rw [Function.update_of_ne hx]
      by_cases hxv : x = v
      · subst hxv
        rw [Function.update_self, Function.update_self, if_pos rfl]
      · rw [Function.update_of_ne hxv, Function.update_of_ne hx, Function.update_of_ne hx, if_neg hxv, if_neg hx]

/-- The move constructor: the new variable gets the value, the old one becomes empty. -/
theorem C62_move (hl : LegalRun K built means w ops) (hr : run K w ops = some w1) {v u : Nat} (hv : w1.vars v = none) (hu : (w1.vars u).isSome) :
    LegalRun K built means w (ops ++ moveInto v u) ∧
      ∀ x, values e (ops ++ moveInto v u) x = if x = u then some e else if x = v then values e ops u else values e ops x := by
  have huv := isSome_ne hv hu
  refine ⟨legalRun_append.2 ⟨hl, fun w' hw => ?_⟩, fun x => ?_⟩
  · rw [hr] at hw
    cases hw
    refine ⟨hv, fun w2 h2 => ?_⟩
    cases h2
    refine ⟨⟨?_, ?_⟩, fun _ _ => trivial⟩
    · simp
    · show (Function.update w1.vars v _ u).isSome = true
      rw [Function.update_of_ne huv]
      exact hu
  · unfold values moveInto
    rw [List.foldl_append]
    generalize ops.foldl (valueStep e) (fun _ => none) = σ
    show Function.update (Function.update (Function.update σ v (some e)) v (Function.update σ v (some e) u)) u (Function.update σ v (some e) v) x = _
    by_cases hx : x = u
    · subst hx
      rw [Function.update_self, Function.update_self, if_pos rfl]
    · rw [Function.update_of_ne hx, if_neg hx]
      by_cases hxv : x = v
      · subst hxv
        rw [Function.update_self, Function.update_of_ne huv, if_pos rfl]
      · rw [Function.update_of_ne hxv, Function.update_of_ne hxv, if_neg hxv]

theorem swap_destroy {t v : Nat} {z : Var α} {w2 : World α} (hvt : v ≠ t) (hv : (w1.vars v).isSome) (hz : w2.vars = Function.update w1.vars t (some z)) (junk : Mem) :
    LegalRun K built means w2 [.swap t v, .destroy t junk] := by
  refine ⟨⟨by rw [hz]; simp, by rw [hz, Function.update_of_ne hvt]; exact hv⟩, fun w3 h3 => ?_⟩
  cases h3
  refine ⟨?_, fun _ _ => trivial⟩
  show (Function.update (Function.update w2.vars t (w2.vars v)) v (w2.vars t) t).isSome = true
  rw [Function.update_of_ne hvt.symm, Function.update_self, hz, Function.update_of_ne hvt]
  exact hv

theorem swap_destroy_values {σ : Nat → Option V} {t v : Nat} {val : V} (hvt : v ≠ t) (junk : Mem) (x : Nat) :
    [(.swap t v : Op α V), .destroy t junk].foldl (valueStep e) (Function.update σ t (some val)) x =
      if x = v then some val else if x = t then none else σ x := by
  show Function.update (Function.update (Function.update (Function.update σ t (some val)) t (Function.update σ t (some val) v)) v
    (Function.update σ t (some val) t)) t none x = _
  by_cases hx : x = t
  · subst hx
    rw [Function.update_self, if_neg hvt.symm, if_pos rfl]
  · rw [Function.update_of_ne hx]
    by_cases hxv : x = v
    · subst hxv
      rw [Function.update_self, Function.update_self, if_pos rfl]
    · rw [Function.update_of_ne hxv, Function.update_of_ne hx, Function.update_of_ne hx, if_neg hxv, if_neg hx]

/-- `v.Load(...)` of something that means `val`. -/
theorem C62_load (hl : LegalRun K built means w ops) (hr : run K w ops = some w1) {t v n : Nat} {x : α} {val : V} (ht : w1.vars t = none) (hv : (w1.vars v).isSome)
    (hf : Fresh w1 (K.base x) n) (hn : K.size x ≤ n) (hb : built x) (hm : means x val) (junk : Mem) :
    LegalRun K built means w (ops ++ loadInto t v x n val junk) ∧
      ∀ i, values e (ops ++ loadInto t v x n val junk) i = if i = v then some val else if i = t then none else values e ops i := by
  have hvt := isSome_ne ht hv
  refine ⟨legalRun_append.2 ⟨hl, fun w' hw => ?_⟩, fun i => ?_⟩
  · rw [hr] at hw
    cases hw
    refine ⟨⟨ht, hf, hn, hb, hm⟩, fun w2 h2 => ?_⟩
    cases h2
    exact swap_destroy hvt hv rfl junk
  · unfold values loadInto
    rw [List.foldl_append]
    exact swap_destroy_values hvt junk i

/-- `v.Mmap(...)` of something that means `val`. -/
theorem C62_mmap (hl : LegalRun K built means w ops) (hr : run K w ops = some w1) {t v : Nat} {x : α} {val : V} (ht : w1.vars t = none) (hv : (w1.vars v).isSome)
    (hf : ∃ b ∈ w1.mapped, b.1 ≤ K.base x ∧ K.base x + K.size x ≤ b.1 + b.2) (hm : means (K.withMem w1.mem x) val) (junk : Mem) :
    LegalRun K built means w (ops ++ mmapInto t v x val junk) ∧
      ∀ i, values e (ops ++ mmapInto t v x val junk) i = if i = v then some val else if i = t then none else values e ops i := by
  have hvt := isSome_ne ht hv
  refine ⟨legalRun_append.2 ⟨hl, fun w' hw => ?_⟩, fun i => ?_⟩
  · rw [hr] at hw
    cases hw
    refine ⟨⟨ht, hf, hm⟩, fun w2 h2 => ?_⟩
    cases h2
    exact swap_destroy hvt hv rfl junk
  · unfold values mmapInto
    rw [List.foldl_append]
    exact swap_destroy_values hvt junk i

end

/-! ### The hypotheses are met

What the constructors, `Load` and gluing give is laid out as `LegalRun` wants it. -/

/-- A valid scanner that is not the empty one. -/
theorem C62_scanner_built {P : Policy} {s : Multi} (hv : Valid P s) (he : s.empty = false) : MultiBuilt P s := by
  obtain ⟨T, hT⟩ := hv
  exact ⟨he, hT.fits⟩

/-- A scanner compiled from an automaton may be made. -/
theorem C62_scanner_compiled {P : Policy} (hP : Typedef P) {f : Fsm} {base : Nat} {s : Multi} (h : f.Good) (ht : f.TagsClean) (hs : compile P base f = some s)
    (hb : Placed P base f s) {w : World Multi} {v : Nat} {nul : Multi} (hv : w.vars v = none) (hf : Fresh w base (bufSize P s.m + 8)) :
    Legal (multiKind P nul) (MultiBuilt P) (fun s Ls => Valid P s ∧ Recognizes P s Ls) w (.make v s (bufSize P s.m + 8) [f.Lang]) := by
  obtain ⟨h1, h2, h3⟩ := compile_spec hP.real h ht hs hb.align hb.space hb.small
  obtain ⟨T, -, h4⟩ := compile_core hP.real h ht hs hb.align hb.space hb.small
  refine ⟨hv, ?_, Nat.le_add_right _ _, C62_scanner_built h1 h2, h1, h3⟩
  rw [show (multiKind P nul).base s = s.base from rfl, h4]
  exact hf

/-- The default constructor of `SimpleScanner` gives a scanner that accepts nothing. -/
theorem C62_simple_null {nul : Simple} {base : Nat} (hn : Simple.null base = some nul) (ha : base % 8 = 0) (hb : base ≤ 2 ^ 63) :
    (∃ T, Simple.Repr nul T) ∧ Simple.Recognizes nul 0 ∧ nul.base = base ∧ nul.statesCount ≤ 200001 := by
  unfold Simple.null at hn
  rw [Option.map_eq_some_iff] at hn
  obtain ⟨s, hs, rfl⟩ := hn
  have hg := Fsm.Good.makeFalse
  have ht : Fsm.makeFalse.TagsIn (· = 0) := by intro q t h; cases h
  have hcnt : s.statesCount ≤ 200001 := by
    unfold Simple.compile at hs
    rw [Option.map_eq_some_iff] at hs
    obtain ⟨g, hgc, rfl⟩ := hs
    have hsz := Fsm.canonize_size hg hgc
    rw [if_neg (by decide), if_neg (by decide)] at hsz
    have hst : (Simple.compileCanonized base g).statesCount = g.size := by
      rw [Simple.compileCanonized_eq]; exact (Simple.writes_rest _ _).1
    rw [hst]
    exact hsz
  have hsp : base + Simple.bufSize s.statesCount ≤ 2 ^ 64 := by
    unfold Simple.bufSize
    have hM : Simple.rowSize = 265 := rfl
    rw [hM]
    omega
  obtain ⟨g, r1, -, -, -, -, r2⟩ := simple_compile_repr hg ht hs ha hsp
  have hR := (C23_simple_decides hg ht hs ha hsp).1
  rw [Fsm.lang_makeFalse] at hR
  have r3 : Simple.Repr { s with empty := true } (tblOf g) := ⟨r1.wf, r1.align, r1.space, r1.states, r1.initial, r1.jump, r1.tag⟩
  exact ⟨⟨_, r3⟩, simple_same r1 r3 hR, r2, hcnt⟩

theorem alike_refl (s : Loaded) : Loaded.Alike s s := ⟨rfl, rfl, rfl, fun _ _ => rfl, fun _ _ => rfl, fun _ _ => rfl⟩

/-- A loaded scanner with memory of its own. -/
theorem C62_loaded_built {s : Loaded} (hv : s.Valid) (ho : Loaded.Owned s s.letters) : LoadedBuilt s ∧ LoadedMeans s s := by
  obtain ⟨⟨T, hT⟩, -⟩ := hv
  have hlim := hT.limit
  have hnl : T.n * (s.lettersCount * 8) = 8 * (T.n * s.lettersCount) := by ring
  have hM : MaxChar = 264 := rfl
  refine ⟨⟨ho, by rw [hT.states]; omega⟩, ⟨⟨?_, ?_⟩, T, hT⟩, alike_refl s, rfl⟩
  · exact Nat.le_of_eq ho.jumps.symm
  · rw [ho.jumps]
    exact Nat.le_of_eq ho.tags.symm

/-- The static empty scanner of `LoadedScanner`. -/
theorem C62_loaded_null {nul : Loaded} {base : Nat} (hn : Loaded.null base = some nul) (ha : base % 8 = 0) (hb : base ≤ 2 ^ 63) :
    LoadedMeans nul nul ∧ nul.letters = base ∧ nul.tags + nul.statesCount ≤ base + 2 ^ 32 := by
  unfold Loaded.null at hn
  rw [Option.map_eq_some_iff] at hn
  obtain ⟨f, hf, rfl⟩ := hn
  have hgood := Fsm.Good.makeFalse
  have hdet := (Fsm.canonize_spec hgood hf).1
  have hsz := Fsm.canonize_size hgood hf
  rw [if_neg (by decide), if_neg (by decide)] at hsz
  have hl := Fsm.null_letters hf
  have hM : MaxChar = 264 := rfl
  have hnl : f.size * (f.letters.size * 8) = 8 * (f.size * f.letters.size) := by ring
  have hmul : f.size * f.letters.size ≤ f.size * 1 := Nat.mul_le_mul_left _ hl
  obtain ⟨h1, h2, h3, h4⟩ := Loaded.compileCanonized_repr 0 0 id hdet (by omega) ha (by unfold Loaded.bufSize; rw [hM, hnl]; omega) (by omega)
  have ho := h4.owned (by omega)
  generalize Loaded.compileCanonized 0 0 id base f = t at *
  refine ⟨⟨⟨⟨?_, ?_⟩, _, ⟨h1.q0, h1.step_lt, h1.pos, h1.small, h1.align, h1.space, h1.limit, h1.states, h1.initial, h1.letter, h1.next, h1.tag⟩⟩, alike_refl _, rfl⟩, ho.letters, ?_⟩
  · show t.letters + MaxChar ≤ t.jumps
    rw [ho.letters, ho.jumps]
  · show t.jumps + 8 * (t.statesCount * t.lettersCount) ≤ t.tags
    rw [ho.jumps, ho.tags]
  · show t.tags + t.statesCount ≤ base + 2 ^ 32
    have e1 : t.statesCount = f.size := h1.states
    have e2 : t.lettersCount = f.letters.size := h4.lettersCount.trans rfl
    rw [ho.tags, e1, e2, hM]
    omega

theorem fresh_after {α : Type} {w : World α} {a n : Nat} (h1 : 0 < a) (h2 : 0 < n) (h3 : a % 8 = 0) (h4 : a + n ≤ 2 ^ 64) (h5 : ∀ b ∈ w.blocks, b.1 + b.2 ≤ a) : Fresh w a n :=
  ⟨h1, h2, h3, h4, fun b hb => .inl (h5 b hb)⟩

theorem copy_step {α V : Type} {K : Kind α} {w w' : World α} {v u a : Nat} {y : Var α} (h : step K w (.copy v u a : Op α V) = some w') (hu : w.vars u = some y)
    (hb : y.buffer.isSome) : w'.static = w.static ∧ w'.mapped = w.mapped ∧ w'.owned = (a, K.room (K.copyTo a (K.withMem w.mem y.obj))) :: w.owned ∧
      w'.vars = Function.update w.vars v (some ⟨K.copyTo a (K.withMem w.mem y.obj), some a⟩) := by
  unfold step at h
  dsimp only at h
  rw [hu, Option.bind_some] at h
  obtain ⟨c, hc⟩ := Option.isSome_iff_exists.1 hb
  rw [hc] at h
  dsimp only at h
  split at h
  · cases h
    exact ⟨rfl, rfl, rfl, rfl⟩
  · cases h

/-- A program: `Scanner a; Scanner b = compile(...); Scanner c = b; a = b;` then `b` dies. -/
def someProgram {α V : Type} (s : α) (S : Nat) (val : V) : List (Op α V) :=
  [.default 0, .make 1 s S val, .copy 2 1 (2 ^ 45)] ++ assign 9 0 1 (2 ^ 46) (fun _ => 77) ++ [.destroy 1 fun _ => 99]

theorem someProgram_legal {α V : Type} {K : Kind α} {built : α → Prop} {means : α → V → Prop} {s : α} {S N : Nat} {val : V} {w : World α}
    (hbase : K.base s = 2 ^ 44) (hsize : K.size s ≤ S) (hsz : S ≤ 2 ^ 40) (hpos : 0 < S) (hnz : N ≤ 2 ^ 40) (hroom : K.room s = S)
    (hcs : ∀ a m, K.room (K.copyTo a (K.withMem m s)) = S) (hb : built s) (hm : means s val)
    (hw : w.static = (4096, N) ∧ w.mapped = [] ∧ w.owned = [] ∧ ∀ v, w.vars v = none) : LegalRun K built means w (someProgram s S val) := by
  obtain ⟨w1, w2, w3, w4⟩ := hw
  unfold someProgram assign
  refine ⟨w4 0, fun u1 h1 => ⟨?_, fun u2 h2 => ⟨?_, fun u3 h3 => ⟨?_, fun u4 h4 => ⟨?_, fun u5 h5 => ⟨?_, fun u6 h6 => ⟨?_, fun _ _ => trivial⟩⟩⟩⟩⟩⟩⟩
  · cases h1
    refine ⟨?_, ?_, hsize, hb, hm⟩
    · show Function.update w.vars 0 (some ⟨K.null, none⟩) 1 = none
      rw [Function.update_of_ne (by decide)]; exact w4 1
    · rw [hbase]
      refine fresh_after (by norm_num) hpos (by norm_num) (by omega) fun b hb => ?_
      unfold World.blocks at hb
      simp only [w1, w2, w3, List.nil_append, List.mem_singleton] at hb
      subst hb
      show 4096 + N ≤ _
      omega
  all_goals
    have v1 : u2.vars = Function.update (Function.update w.vars 0 (some ⟨K.null, none⟩)) 1 (some ⟨s, some (2 ^ 44)⟩) := by cases h1; cases h2; rw [hbase]
    have v2 : u2.blocks = [(2 ^ 44, S), (4096, N)] := by
      cases h1; cases h2
      unfold World.blocks
      simp only [w1, w2, w3, hbase, List.cons_append, List.nil_append]
    have v3 : u2.vars 1 = some ⟨s, some (2 ^ 44)⟩ := by rw [v1, Function.update_self]
  · refine ⟨?_, _, v3, fun _ => ?_⟩
    · rw [v1, Function.update_of_ne (by decide), Function.update_of_ne (by decide)]; exact w4 2
    · rw [hroom]
      refine fresh_after (by norm_num) hpos (by norm_num) (by omega) fun b hb => ?_
      rw [v2] at hb
      simp only [List.mem_cons, List.not_mem_nil, or_false] at hb
      rcases hb with rfl | rfl <;> dsimp only <;> omega
  all_goals
    obtain ⟨c1, c2, c3, c4⟩ := copy_step h3 v3 rfl
    rw [hcs] at c3
    have v5 : u3.blocks = [(2 ^ 45, S), (2 ^ 44, S), (4096, N)] := by
      unfold World.blocks at v2 ⊢
      rw [c1, c2, c3, List.cons_append, v2]
    have v6 : u3.vars 1 = some ⟨s, some (2 ^ 44)⟩ := by rw [c4, Function.update_of_ne (by decide), v3]
    have v7 : (u3.vars 0).isSome := by rw [c4, Function.update_of_ne (by decide), v1, Function.update_of_ne (by decide), Function.update_self]; rfl
  · refine ⟨?_, _, v6, fun _ => ?_⟩
    · rw [c4, Function.update_of_ne (by decide), v1, Function.update_of_ne (by decide), Function.update_of_ne (by decide)]; exact w4 9
    · rw [hroom]
      refine fresh_after (by norm_num) hpos (by norm_num) (by omega) fun b hb => ?_
      rw [v5] at hb
      simp only [List.mem_cons, List.not_mem_nil, or_false] at hb
      rcases hb with rfl | rfl | rfl <;> dsimp only <;> omega
  all_goals
    obtain ⟨d1, d2, d3, d4⟩ := copy_step h4 v6 rfl
    have v8 : (u4.vars 9).isSome := by rw [d4, Function.update_self]; rfl
    have v9 : (u4.vars 0).isSome := by rw [d4, Function.update_of_ne (by decide)]; exact v7
  · exact ⟨v8, v9⟩
  · cases h5
    show (Function.update (Function.update u4.vars 9 (u4.vars 0)) 0 (u4.vars 9) 9).isSome = true
    rw [Function.update_of_ne (by decide), Function.update_self]; exact v9
  · have e5 : u5.vars 1 = u4.vars 1 := by
      cases h5
      show Function.update (Function.update u4.vars 9 (u4.vars 0)) 0 (u4.vars 9) 1 = _
      rw [Function.update_of_ne (by decide), Function.update_of_ne (by decide)]
    have e6 : u6.vars 1 = u5.vars 1 := by
      unfold step at h6
      dsimp only at h6
      rw [Option.bind_eq_some_iff] at h6
      obtain ⟨y, g1, g2⟩ := h6
      cases hy : y.buffer with
      | none =>
        rw [hy] at g2
        cases g2
        exact Function.update_of_ne (f := u5.vars) (v := none) (show (1 : Nat) ≠ 9 by decide)
      | some c =>
        rw [hy] at g2
        dsimp only at g2
        rw [Option.map_eq_some_iff] at g2
        obtain ⟨b, -, rfl⟩ := g2
        exact Function.update_of_ne (f := u5.vars) (v := none) (show (1 : Nat) ≠ 9 by decide)
    show (u6.vars 1).isSome = true
    rw [e6, e5, d4, Function.update_of_ne (by decide), v6]
    rfl

/-- The hypotheses of `C62_simple` are met: the program with `ab` searched for anywhere. After it `a` and `c` still find `ab`, and `b` is gone. -/
example : ∃ (nul s : Simple) (w w' : World Simple), run (simpleKind nul) w (someProgram s (Simple.bufSize s.statesCount) abAnywhere.den) = some w' ∧
    w'.view (simpleKind nul) 1 = none ∧ (∃ a, w'.view (simpleKind nul) 0 = some a ∧ Simple.Recognizes a abAnywhere.den) ∧
    ∃ c, w'.view (simpleKind nul) 2 = some c ∧ Simple.Recognizes c abAnywhere.den := by
  have hM : Simple.rowSize = 265 := rfl
  obtain ⟨g, hg⟩ := canonize_small Fsm.Good.makeFalse (show Fsm.makeFalse.size ≤ 17 by decide +kernel)
  obtain ⟨nul, hn⟩ : ∃ nul, Simple.null 4096 = some nul := by
    unfold Simple.null Simple.compile
    rw [hg]
    exact ⟨_, rfl⟩
  obtain ⟨n1, n2, n3, n4⟩ := C62_simple_null hn rfl (by omega)
  obtain ⟨f, s, hf, hs, ⟨hv, he, -⟩, hR, hst⟩ := abAnywhere_simple (2 ^ 44) rfl (by omega) (by omega)
  have hsb : s.base = 2 ^ 44 := by
    unfold Simple.compile at hs
    rw [Option.map_eq_some_iff] at hs
    obtain ⟨g, hgc, rfl⟩ := hs
    rw [Simple.compileCanonized_eq]; exact (Simple.writes_rest _ _).2.2.1
  have hsz : Simple.bufSize s.statesCount ≤ 2 ^ 40 := by unfold Simple.bufSize; rw [hM]; omega
  have hnz : Simple.bufSize nul.statesCount ≤ 2 ^ 40 := by unfold Simple.bufSize; rw [hM]; omega
  have hpos : 0 < Simple.bufSize s.statesCount := (simple_laws nul).size_pos s _ ⟨hv, hR⟩
  have hcs : ∀ a m, (simpleKind nul).room ((simpleKind nul).copyTo a ((simpleKind nul).withMem m s)) = Simple.bufSize s.statesCount :=
    fun a m => (simple_laws nul).copy_room a _ he
  have hroom : (simpleKind nul).room s = Simple.bufSize s.statesCount := rfl
  have hbase : (simpleKind nul).base s = 2 ^ 44 := hsb
  have hsize : (simpleKind nul).size s = Simple.bufSize s.statesCount := rfl
  let w : World Simple := { mem := nul.mem, owned := [], static := (4096, Simple.bufSize nul.statesCount), mapped := [], vars := fun _ => none }
  have hstart : Start (simpleKind nul) w := ⟨fun _ => rfl, rfl, rfl, ⟨Nat.le_of_eq n3.symm, by
    show nul.base + Simple.bufSize nul.statesCount ≤ 4096 + Simple.bufSize nul.statesCount
    rw [n3]⟩, fun _ _ _ => rfl⟩
  have hl := someProgram_legal (w := w) (built := fun s : Simple => s.empty = false) (means := fun s (L : Language Nat) => (∃ T, Simple.Repr s T) ∧ Simple.Recognizes s L)
    hbase (Nat.le_of_eq hsize) hsz hpos hnz hroom hcs he ⟨hv, hR⟩ ⟨rfl, rfl, rfl, fun _ => rfl⟩
  obtain ⟨w', g1, g2, g3, -⟩ := C62_simple ⟨n1, n2⟩ hstart hl
  exact ⟨nul, s, w, w', g1, (g2 1).1 rfl, g3 0 _ rfl, g3 2 _ rfl⟩

/-- The same for every type of `Scanner`. -/
example {P : Policy} (hP : Typedef P) : ∃ (nul s : Multi) (w w' : World Multi),
    run (multiKind P nul) w (someProgram s (bufSize P s.m + 8) [abAnywhere.den]) = some w' ∧
    w'.view (multiKind P nul) 1 = none ∧ (∃ a, w'.view (multiKind P nul) 0 = some a ∧ Recognizes P a [abAnywhere.den]) ∧
    ∃ c, w'.view (multiKind P nul) 2 = some c ∧ Recognizes P c [abAnywhere.den] := by
  obtain ⟨g, hg⟩ := canonize_small Fsm.Good.makeFalse (show Fsm.makeFalse.size ≤ 17 by decide +kernel)
  obtain ⟨nul, hn⟩ : ∃ nul, Multi.null P 4096 = some nul := by
    unfold Multi.null Multi.compile
    rw [hg]
    exact ⟨_, rfl⟩
  have hnb : nul.base = 4096 ∧ bufSize P nul.m ≤ 2 ^ 39 := by
    unfold Multi.null at hn
    rw [Option.map_eq_some_iff] at hn
    obtain ⟨z, hz, rfl⟩ := hn
    have hnd : Fsm.makeFalse.determined = false := rfl
    have hsp := compile_bufSize hP.real Fsm.Good.makeFalse hz (by omega) hnd
    obtain ⟨T, hT, hb⟩ := compile_core hP.real Fsm.Good.makeFalse (by intro q t h; cases h) hz rfl hsp (by rw [hnd]; simp)
    obtain ⟨c1, c2, c3⟩ := compile_counts Fsm.Good.makeFalse hz hnd
    refine ⟨hb, ?_⟩
    have hr := Nat.mul_le_mul (rowBytes_le hP.real c2) c1
    have e : rowSize P z.m * z.m.statesCount * P.reloc.tsz = rowBytes P z.m * z.m.statesCount := by
      unfold rowBytes; ring
    have hM : MaxChar = 264 := rfl
    show bufSize P z.m ≤ _
    unfold bufSize Scn.alignUp
    rw [e, hM]
    omega
  have ok : abAnywhere.Ok := show IsWord [97, 98] by unfold IsWord; decide
  obtain ⟨f, s, hf, hs, hp, hR⟩ := abAnywhere_compiles P hP (2 ^ 44) rfl (by omega)
  obtain ⟨hgd, -, -⟩ := build_spec abAnywhere ok _ hf
  have htg := build_tagsIn _ Fsm.or_mod4 _ _ hf
  obtain ⟨v, he, -⟩ := compile_spec hP.real hgd htg hs hp.align hp.space hp.small
  obtain ⟨T, -, hsb⟩ := compile_core hP.real hgd htg hs hp.align hp.space hp.small
  have hnd : f.determined = false := by
    have hf0 : build abAnywhere = some (Fsm.init.appendStr [97, 98]).surround := rfl
    rw [hf0, Option.some.injEq] at hf
    rw [← hf]; exact abAnywhere_undetermined
  have hsz : bufSize P s.m ≤ 2 ^ 39 := by
    obtain ⟨c1, c2, c3⟩ := compile_counts hgd hs hnd
    have hr := Nat.mul_le_mul (rowBytes_le hP.real c2) c1
    have e : rowSize P s.m * s.m.statesCount * P.reloc.tsz = rowBytes P s.m * s.m.statesCount := by
      unfold rowBytes; ring
    have hM : MaxChar = 264 := rfl
    unfold bufSize Scn.alignUp
    rw [e, hM]
    omega
  have hb := C62_scanner_built v he
  have hcs : ∀ a m, (multiKind P nul).room ((multiKind P nul).copyTo a ((multiKind P nul).withMem m s)) = bufSize P s.m + 8 :=
    fun a m => (multi_laws hP nul).copy_room a _ hb
  let w : World Multi := { mem := nul.mem, owned := [], static := (4096, bufSize P nul.m), mapped := [], vars := fun _ => none }
  have hstart : Start (multiKind P nul) w := ⟨fun _ => rfl, rfl, rfl, ⟨Nat.le_of_eq hnb.1.symm, by
    show nul.base + bufSize P nul.m ≤ 4096 + bufSize P nul.m
    rw [hnb.1]⟩, fun _ _ _ => rfl⟩
  have hl := someProgram_legal (w := w) (K := multiKind P nul) (N := bufSize P nul.m) (s := s) (S := bufSize P s.m + 8) (built := MultiBuilt P)
    (means := fun s (Ls : List (Language Nat)) => Valid P s ∧ Recognizes P s Ls) (val := [abAnywhere.den])
    hsb (Nat.le_add_right _ _) (by omega) (by omega) (by omega) rfl hcs hb ⟨v, hR⟩ ⟨rfl, rfl, rfl, fun _ => rfl⟩
  obtain ⟨w', g1, g2, g3, -⟩ := C62_scanner hP hn rfl (by omega) hstart hl
  obtain ⟨a, a1, -, a2⟩ := g3 0 _ rfl
  obtain ⟨c, c1, -, c2⟩ := g3 2 _ rfl
  exact ⟨nul, s, w, w', g1, (g2 1).1 rfl, ⟨a, a1, a2⟩, c, c1, c2⟩

/-- The program with a counting scanner for the longest series of `a` is legal. -/
theorem series_program (remap : Nat → Nat) : ∃ (nul s : Loaded) (w : World Loaded), LoadedMeans nul nul ∧ Start (loadedKind nul) w ∧
    LegalRun (loadedKind nul) LoadedBuilt LoadedMeans w (someProgram s (Loaded.bufSize s.statesCount s.lettersCount) (series remap 97)) ∧
    -- what else is known: where things are, and that there is another copy somewhere else
    s.letters = 2 ^ 44 ∧ w.blocks = [(4096, 2 ^ 32)] ∧ Loaded.bufSize s.statesCount s.lettersCount ≤ 1000 ∧
    ∃ x, x.letters = 2 ^ 45 ∧ x.tags + x.statesCount - x.letters ≤ 1000 ∧ LoadedBuilt x ∧ LoadedMeans x (series remap 97) := by
  obtain ⟨f0, hf0⟩ := canonize_small Fsm.Good.makeFalse (show Fsm.makeFalse.size ≤ 17 by decide +kernel)
  obtain ⟨nul, hn⟩ : ∃ nul, Loaded.null 4096 = some nul := ⟨_, by unfold Loaded.null; rw [hf0]; rfl⟩
  have hN := C62_loaded_null hn rfl (by omega)
  obtain ⟨hN, hl1, hl2⟩ := hN
  have hsize := Nat.le_refl (nul.tags + nul.statesCount - nul.letters)
  obtain ⟨⟨hw, hal, hP, hlim, ha, hb, h0, hst, hcl⟩, hsz⟩ := series_fillable 97
  obtain ⟨h1, h2, h3, h4⟩ := Count.fillTable_repr (remap := remap) hw hal hP h0 ha (small_bufSize hlim (letters_pos hw hal) hb) hlim hst hcl
  have e : series remap 97 = Count.fillTable remap 0 (seriesOf 97).n (seriesOf 97).q0 (seriesLetters 97) (seriesOf 97).step (seriesOf 97).out := by
    unfold series; rfl
  have hn1 : (seriesOf 97).n = 1 := rfl
  have ho := h4.owned (by rw [hn1]; omega)
  have hlet : (series remap 97).lettersCount ≤ 2 := (series_repr remap 97).2.1
  have hsts : (series remap 97).statesCount = 1 := (series_repr remap 97).2.2.1
  rw [← e] at h1 h2 ho
  have hx := C62_loaded_built (s := series remap 97) ⟨⟨_, h1⟩, by rw [h2]; norm_num⟩ (by rw [ho.letters]; exact ho)
  have hbs : Loaded.bufSize (series remap 97).statesCount (series remap 97).lettersCount ≤ 1000 := by
    unfold Loaded.bufSize
    have hM : MaxChar = 264 := rfl
    rw [hsts, hM]
    omega
  have hc := loaded_copy_means (a := 2 ^ 44) hx.1 hx.2 (by norm_num) (by omega)
  have hcb : (Loaded.copyCtor true (2 ^ 44) (series remap 97)).letters = 2 ^ 44 := by
    have := (loaded_laws nul).copy_base (2 ^ 44) _ hx.1
    rw [loadedKind_copyTo] at this
    exact this
  obtain ⟨k1, k2⟩ := Count.copy_counts (series remap 97) (2 ^ 44)
  have hother : ∃ x, x.letters = 2 ^ 45 ∧ x.tags + x.statesCount - x.letters ≤ 1000 ∧ LoadedBuilt x ∧ LoadedMeans x (series remap 97) := by
    have hc := loaded_copy_means (a := 2 ^ 45) hx.1 hx.2 (by norm_num) (by omega)
    obtain ⟨k1, k2⟩ := Count.copy_counts (series remap 97) (2 ^ 45)
    have := (loaded_laws nul).copy_base (2 ^ 45) _ hx.1
    rw [loadedKind_copyTo] at this
    exact ⟨_, this, by rw [loaded_size hc.1, k1, k2]; exact hbs, hc⟩
  generalize Loaded.copyCtor true (2 ^ 44) (series remap 97) = s at *
  rw [← k1, ← k2] at hbs
  have hcs : ∀ a m, (loadedKind nul).room ((loadedKind nul).copyTo a ((loadedKind nul).withMem m s)) = Loaded.bufSize s.statesCount s.lettersCount :=
    fun a m => (loaded_laws nul).copy_room a _ ((loaded_laws nul).built_withMem m s hc.1)
  let w : World Loaded := { mem := nul.mem, owned := [], static := (4096, 2 ^ 32), mapped := [], vars := fun _ => none }
  have hlaid := hN.1.1
  have hstart : Start (loadedKind nul) w := ⟨fun _ => rfl, rfl, rfl, ⟨Nat.le_of_eq hl1.symm, by
    show nul.letters + (nul.tags + nul.statesCount - nul.letters) ≤ 4096 + 2 ^ 32
    omega⟩, fun _ _ _ => rfl⟩
  have hl := someProgram_legal (w := w) (K := loadedKind nul) (N := 2 ^ 32) (s := s) (S := Loaded.bufSize s.statesCount s.lettersCount) (built := LoadedBuilt)
    (means := LoadedMeans) (val := series remap 97) hcb (Nat.le_of_eq (loaded_size hc.1)) (by omega) (by unfold Loaded.bufSize; have hM : MaxChar = 264 := rfl; omega) (by norm_num)
    rfl hcs hc.1 hc.2 ⟨rfl, rfl, rfl, fun _ => rfl⟩
  exact ⟨nul, s, w, hN, hstart, hl, hcb, rfl, hbs, hother⟩

/-- The same for an `AdvancedCountingScanner` that counts the longest series of `a`. -/
example : ∃ (nul x s : Loaded) (w w' : World Loaded), x = series Count.remapAdvanced 97 ∧
    run (loadedKind nul) w (someProgram s (Loaded.bufSize s.statesCount s.lettersCount) x) = some w' ∧
    w'.view (loadedKind nul) 1 = none ∧ (∃ a, w'.view (loadedKind nul) 0 = some a ∧ Loaded.Alike x a) ∧
    ∃ c, w'.view (loadedKind nul) 2 = some c ∧ Loaded.Alike x c := by
  obtain ⟨nul, s, w, hN, hstart, hl, -⟩ := series_program Count.remapAdvanced
  obtain ⟨w', g1, g2, g3, -⟩ := C62_loaded hN hstart hl
  obtain ⟨a, a1, a2, -⟩ := g3 0 _ rfl
  obtain ⟨c, c1, c2, -⟩ := g3 2 _ rfl
  exact ⟨nul, _, s, w, w', rfl, g1, (g2 1).1 rfl, ⟨a, a1, a2⟩, c, c1, c2⟩

end Props
end Pire
