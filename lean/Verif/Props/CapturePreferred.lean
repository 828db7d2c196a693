import Verif.Props.CaptureLeftmost
import Verif.Proofs.CaptureTrack
import Verif.Proofs.CaptureDen
import Verif.Proofs.CaptureCongr

/-!
# C60: greedy repetitions take as much as possible, lazy ones as little as possible

For patterns that are sequences of letters, classes, `.`, these with `*`, `+`, `?`, lazy or not, and groups of such sequences (`Alt.items`), in which no greedy
repetition can be passed before a letter is read (as for C59).
-/

namespace Pire
namespace Props

open Spec Lex Parse Enc Unidata Loaded Capture

variable {o : Options} {e : Encoding} {s : List Nat} {k : Nat} {t : Alt} {f g : Fsm}

/-- The chain between the two states that are added. -/
theorem chained {z m : Nat} {es : List Elem} {J : Nat → Nat → List (Nat × Nat)} {E : Nat → Nat → Nat → Prop} (h : Chain f z m es) (hA : Around f E)
    (hE : Edges (f.size + 2) J E f.output) (hs : Sorted (f.size + 2) J) :
    Chained (f.size + 2) J E f.output (· < f.size) (· = z) f.size (f.size + 1) ∧ Ent E f.output (· < f.size) (· = z) es m f.initial := by
  have hzl := h.lt
  have hil := h.wf.init_lt
  refine ⟨⟨hE, hs, fun c hc => ?_, fun c p he => ?_, h.out.zero (by omega), by omega, by omega, fun q c he => ?_, ?_⟩, ?_⟩
  · exact (hA _ _ _).2 (.inr (.inr (.inr (.inl ⟨rfl, rfl, hc⟩))))
  · rcases (hA _ _ _).1 he with h1 | ⟨h1, -⟩ | ⟨h1, -⟩ | ⟨-, h1, -⟩ | ⟨h1, -⟩
    · have := (h.wf.edge_lt h1).1; omega
    · omega
    · omega
    · exact h1
    · have := h.wf.fin_lt _ h1; omega
  · rcases (hA _ _ _).1 he with h1 | ⟨h1, -⟩ | ⟨h1, -⟩ | ⟨-, h1, -⟩ | ⟨-, h1, -⟩
    · have := (h.wf.edge_lt h1).2.2; omega
    · exact h1
    · exact h1
    · omega
    · omega
  · rintro p rfl
    refine ⟨by omega, ⟨hzl, fun c q => ?_⟩, h.out.zero (by omega)⟩
    rw [hA, h.fin]
    constructor
    · rintro (h1 | ⟨h1, -⟩ | ⟨h1, -⟩ | ⟨h1, -⟩ | ⟨-, h1, h2⟩)
      · exact absurd h1 (h.stop c q)
      · omega
      · omega
      · omega
      · exact ⟨h2, h1⟩
    · rintro ⟨h1, h2⟩
      exact .inr (.inr (.inr (.inr ⟨by simp, h2, h1⟩)))
  · have moved : Moved f.Edge E f.output f.output (Inner f z) (· < f.size) 0 := by
      refine ⟨fun q hq c p => ?_, fun q hq c p he => rfl, fun q hq => hq.2⟩
      have h2 := hq.2
      have h3 := hq.1
      change E q c p ↔ _
      rw [hA]
      constructor
      · rintro (h1 | ⟨h1, -⟩ | ⟨h1, -⟩ | ⟨h1, -⟩ | ⟨h1, -⟩)
        · exact ⟨p, rfl, h1⟩
        · omega
        · omega
        · omega
        · rw [h.fin, Finset.mem_singleton] at h1; omega
      · rintro ⟨p', rfl, h1⟩
        exact .inl h1
    have := moved.ent (B' := (· = z)) (es' := []) ⟨le_rfl, rfl⟩ es m f.initial h.ent
    rwa [List.append_nil] at this

/-- The lists of the table are ordered. -/
theorem compiled_sorted {J : Nat → Nat → List (Nat × Nat)} {F : Nat → Bool} (h : SlowReady g) (hT : TRepr (slowCompile g) g.size J F) : Sorted g.size J := by
  obtain ⟨e1, -⟩ := slowCompile_exact h.wf h.small h.outs
  intro q hq c hc
  have := hT.next q hq c hc
  rw [e1 q hq c hc] at this
  rw [← Option.some.inj this, List.pairwise_map]
  unfold elems
  exact List.pairwise_lt_range.filter _

theorem Searches.chain (h : Searches o .latin1 s k t f g) {lz : List Bool} (hp : CPattern o.flavor s t.spell lz) {x : List Item} (hx : t.items lz = some x) :
    ∃ z, Chain f z (f.initial + 1) (weave x ((t.nth k).map fun a => (t.before k, a.width))) := by
  have h2 := h.parsed
  unfold parseCapture at h2
  rw [C58_tokens hp, ok_bind] at h2
  dsimp only at h2
  rw [(parse_iff (ts := t.spell) (a := t)).2 rfl] at h2
  dsimp only at h2
  obtain ⟨⟨f', r⟩, h3, h4⟩ := res_bind h2
  cases h4
  exact (evalAlt_chain t (Fields.start k, lz) rfl hx h3).1

/-- If the pattern occurs then the group that is captured is that of the preferred match: `i` is the leftmost place where the pattern matches, `ns` are the numbers of
repetitions of the items, and every other way to match at `i` differs first in an item for which `ns` has more repetitions if the item is greedy, fewer if it is lazy. -/
theorem C60_preferred (h : Searches o .latin1 s k t f f.surround) {lz : List Bool} (hp : CPattern o.flavor s t.spell lz) {x : List Item} (hx : t.items lz = some x)
    (hk : t.skips lz = false) {a : Alt} (hn : t.nth k = some a) {w : List Nat} (hw : ∀ c ∈ w, c < 256) (hl : w.length < npos)
    {i₀ : Nat} (hi₀ : i₀ ≤ w.length) {ns₀ : List Nat} (h₀ : Starts x ns₀ (w.drop i₀)) :
    ∃ st y i ns, (slowCompile f.surround).run w = some st ∧ (slowCompile f.surround).getCapture st = some (true, some y) ∧
      i ≤ w.length ∧ Starts x ns (w.drop i) ∧ (∀ i' ≤ w.length, ∀ ns', Starts x ns' (w.drop i') → i ≤ i') ∧
      (∀ ns', Starts x ns' (w.drop i) → ns' ≠ ns → Better x ns ns') ∧
      opt y.beg = some (i + (ns.take (t.before k)).sum) ∧ opt y.fin = some (i + (ns.take (t.before k + a.width)).sum) := by
  have hm := Alt.items_markless t lz hx
  obtain ⟨⟨h1, h2, -⟩, hraw, hM⟩ := h.whole
  have hwf := h1.wf
  have hF := h.fresh hp hm hk
  have hA := surround_around hwf
  have hready := h.ready
  obtain ⟨z, hC⟩ := h.chain hp hx
  obtain ⟨J, Fn, hT, hE, hst, hFn⟩ := slowCompile_repr (f := f.surround) (d := 0) hready.wf hready.small hready.raw hready.tags hready.outs
  have hT : TRepr (slowCompile f.surround) f.surround.size J Fn := hT
  have hE : Edges f.surround.size J f.surround.Edge f.surround.output := hE
  have hst : (slowCompile f.surround).start = f.surround.initial := hst
  have hFn : ∀ q < f.surround.size, Fn q = true ↔ q ∈ f.surround.finals := hFn
  have hS := compiled_sorted hready hT
  have hsz : f.surround.size = f.size + 2 := by unfold Fsm.surround; rw [Fsm.appendAnything_size, Fsm.prependAnything_size]
  have hini : f.surround.initial = f.size := by unfold Fsm.surround; rw [Fsm.appendAnything_initial, Fsm.prependAnything_initial]
  have hfin : f.surround.finals = {f.size + 1} := by unfold Fsm.surround; rw [Fsm.appendAnything_finals, Fsm.prependAnything_size]
  have hout : f.surround.output = f.output := by funext q p; exact output_congr (surround_outputs f) q p
  rw [hout, hsz] at hE
  rw [hsz] at hT hFn hS
  rw [hini] at hst
  rw [hfin] at hFn
  obtain ⟨E, hEe⟩ : ∃ E, E = f.surround.Edge := ⟨_, rfl⟩
  rw [← hEe] at hE hA
  obtain ⟨tb, htb⟩ : ∃ tb, tb = slowCompile f.surround := ⟨_, rfl⟩
  rw [← htb] at hT hst ⊢
  clear hEe htb hini hfin hsz hout hready
  obtain ⟨In, R, Pre, i1, i2, i3, i4⟩ := hM.lab
  have hB : BytesOnly f.Lang := by rw [h2]; exact Alt.bytes .latin1 t h.ok h.simple hm
  have hFn' : ∀ q < f.size + 2, Fn q = true ↔ q = f.size + 1 := fun q hq => by rw [hFn q hq, Finset.mem_singleton]
  have hSur := surrounded hA hwf hM.out hF hE hFn' ((i4 rfl).2.2.imp_right And.right) hB
  obtain ⟨hCh, hEnt⟩ := chained hC hA hE hS
  rw [hn, Option.map_some] at hEnt
  have hbw : t.before k + a.width ≤ x.length := by rw [Alt.items_length t lz hx]; exact Alt.before_width t k hn
  -- occurrences are runs
  have occ : ∀ i, Run E f.initial (w.drop i) (f.size + 1) ↔ ∃ ns, Starts x ns (w.drop i) := by
    intro i
    have := ent_run hCh.beg (fun p hp u hu => (leads_run (hCh.ends p hp) hCh.beg hu).2 (hCh.loops u hu)) _ _ _ hEnt (w.drop i) fun c hc => hw c (List.mem_of_mem_drop hc)
    rw [itemsOf_weave] at this
    exact this
  have hex : ∃ i, ∃ ns, Starts x ns (w.drop i) := ⟨i₀, ns₀, h₀⟩
  classical
  obtain ⟨i, hi, hmin⟩ : ∃ i, (∃ ns, Starts x ns (w.drop i)) ∧ ∀ i' < i, ¬ ∃ ns, Starts x ns (w.drop i') := ⟨Nat.find hex, Nat.find_spec hex, fun i' hi' => Nat.find_min hex hi'⟩
  have hil : i ≤ i₀ := Nat.le_of_not_lt fun hlt => hmin i₀ hlt ⟨ns₀, h₀⟩
  obtain ⟨ns, hbest⟩ := exists_best x (w.drop i) hi
  obtain ⟨st, b, y, r1, r2, r3, r4, r5⟩ := hunted (W := w) (i := i) (ns := ns) ⟨hSur, hCh, hwf.init_lt, hEnt⟩ hT hst (.inl ((hFn' _ (by omega)).2 rfl)) hw hl (by omega)
    (fun k hk hr => hmin k hk ((occ k).1 hr)) (by rw [itemsOf_weave]; exact hbest)
  have hsum : ns.sum ≤ w.length - i := by
    have := hbest.1.sum_le
    rwa [List.length_drop] at this
  have hle : ∀ n, (ns.take n).sum ≤ ns.sum := fun n => by
    have := congrArg List.sum (List.take_append_drop n ns)
    rw [List.sum_append] at this; omega
  rw [begAt_weave hbw] at r4
  rw [finAt_weave hbw] at r5
  have l1 := hle (t.before k)
  have l2 := hle (t.before k + a.width)
  have hb : b = true := r3 (by omega)
  subst hb
  refine ⟨st, y, i, ns, r1, r2, by omega, hbest.1, fun i' _ ns' h' => Nat.le_of_not_lt fun hlt => hmin i' hlt ⟨ns', h'⟩, fun ns' h' hne => hbest.2 ns' h' hne, ?_, ?_⟩
  · unfold opt; rw [if_neg (by omega), r4]
  · unfold opt; rw [if_neg (by omega), r5]

/-- The items of a pattern match what the pattern means. -/
theorem C60_items {lz : List Bool} {x : List Item} (hx : t.items lz = some x) {v : List Nat} {n : Nat} (hn : n ≤ v.length) :
    v.take n ∈ t.den Codec.ascii ↔ ∃ ns, Starts x ns v ∧ ns.sum = n := items_prefix hx hn

end Props
end Pire
