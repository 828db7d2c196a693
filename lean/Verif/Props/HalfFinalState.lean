import Verif.Model.HalfFinalState
import Verif.Props.HalfFinal
import Verif.Proofs.Io

/-!
# C67: a half-final state that was saved and loaded

It is in the same state of the automaton, but has forgotten what it had counted.
-/

namespace Pire.Props
open Pire Pire.Spec Multi HalfFinal Io

section
variable {P : Policy} {s : Multi} {Ls : List (Language Nat)}

/-- What is loaded: the scanner state, the number of counters, and zeros. -/
theorem C67_roundtrip (x : Stored) (h1 : x.state.st < 2 ^ 64) (h2 : x.size < 2 ^ 64) (rest : Bytes) :
    Stored.load (x.save ++ rest) = some (⟨{ st := x.state.st, matched := fun _ => 0 }, x.size⟩, rest) := by
  unfold Stored.load Stored.save
  rw [List.append_assoc, List.append_assoc, loadHeader_append (header_roundtrip _ (by decide) (by decide) (by decide) (by decide) (by decide) (by decide)) (by decide)]
  simp only [Option.bind_some]
  rw [take_append (by simp)]
  simp only [Option.bind_some]
  rw [alignLoad_append (length_alignSave _)]
  simp only [Option.bind_some]
  rw [List.take_left' (by simp), List.drop_left' (by simp), num_le8 _ h1, num_le8 _ h2]

/-- Two states of the same scanner state keep the difference of their counters. -/
theorem after_shift (v : List Nat) (a b : State) (hst : a.st = b.st) (ha : ∀ j, a.matched j < 2 ^ 64) (hb : ∀ j, b.matched j < 2 ^ 64) :
    ((HalfFinal.scn P s).after a v).st = ((HalfFinal.scn P s).after b v).st ∧
    (∀ j, ((HalfFinal.scn P s).after a v).matched j < 2 ^ 64) ∧ (∀ j, ((HalfFinal.scn P s).after b v).matched j < 2 ^ 64) ∧
    ∀ i, (((HalfFinal.scn P s).after a v).matched i + b.matched i) % 2 ^ 64 = (((HalfFinal.scn P s).after b v).matched i + a.matched i) % 2 ^ 64 := by
  induction v using List.reverseRecOn with
  | nil => exact ⟨hst, ha, hb, fun i => by simp only [Scn.after, List.foldl_nil]; rw [Nat.add_comm]⟩
  | append_singleton v c ih =>
    obtain ⟨i1, i2, i3, i4⟩ := ih
    rw [after_snoc', after_snoc']
    generalize (HalfFinal.scn P s).after a v = x at *
    generalize (HalfFinal.scn P s).after b v = y at *
    have ex : (HalfFinal.scn P s).step x c = takeAction P s { x with st := s.next P x.st c } := rfl
    have ey : (HalfFinal.scn P s).step y c = takeAction P s { y with st := s.next P y.st c } := rfl
    rw [ex, ey]
    obtain ⟨x1, x2⟩ := takeAction_spec (P := P) (s := s) { x with st := s.next P x.st c }
    obtain ⟨y1, y2⟩ := takeAction_spec (P := P) (s := s) { y with st := s.next P y.st c }
    have x3 := x2 i2
    have y3 := y2 i3
    refine ⟨by rw [x1, y1]; simp only; rw [i1], fun j => ?_, fun j => ?_, fun i => ?_⟩
    · rw [x3]; exact Nat.mod_lt _ (by norm_num)
    · rw [y3]; exact Nat.mod_lt _ (by norm_num)
    · rw [x3, y3]
      have := i4 i
      simp only [i1]
      omega

/-- Continued after the text `u` with the text `v`, a state that was saved and loaded has counted exactly what lies behind `u`. -/
theorem C67_counts_since_loaded (h : Recognizes P s Ls) {i : Nat} {L : Language Nat} (hL : Ls[i]? = some L) {u v : List Nat} (hw : IsWord (u ++ v))
    (hlen : (u ++ v).length + 1 < 2 ^ 64) {x : Stored} (hx : x.state = (HalfFinal.scn P s).after (HalfFinal.scn P s).initial u)
    (h1 : x.state.st < 2 ^ 64) (h2 : x.size < 2 ^ 64) {y : Stored} {rest rest' : Bytes} (hy : Stored.load (x.save ++ rest) = some (y, rest')) :
    ((HalfFinal.scn P s).after y.state v).result i = positions L (u ++ v) - positions L u ∧ rest' = rest ∧ y.size = x.size := by
  rw [C67_roundtrip x h1 h2] at hy
  simp only [Option.some.injEq, Prod.mk.injEq] at hy
  obtain ⟨rfl, rfl⟩ := hy
  refine ⟨?_, rfl, rfl⟩
  have hu : IsWord u := fun c hc => hw c (by simp [hc])
  have hlu : u.length + 1 < 2 ^ 64 := by rw [List.length_append] at hlen; omega
  obtain ⟨-, a2, a3, a4⟩ := after_shift (P := P) (s := s) v { st := x.state.st, matched := fun _ => 0 } x.state rfl (fun _ => by norm_num)
    (fun j => by rw [hx, (run_spec u).2]; exact Nat.mod_lt _ (by norm_num))
  have h3 := a4 i
  have h4 : (HalfFinal.scn P s).after x.state v = (HalfFinal.scn P s).after (HalfFinal.scn P s).initial (u ++ v) := by
    rw [hx]; unfold Scn.after; rw [List.foldl_append]
  rw [h4] at h3
  have c1 := C49_counts_exact h hL hw hlen
  have c2 := C49_counts_exact h hL hu hlu
  rw [show x.state.matched i = positions L u by rw [hx]; exact c2,
    show ((HalfFinal.scn P s).after (HalfFinal.scn P s).initial (u ++ v)).matched i = positions L (u ++ v) from c1] at h3
  show ((HalfFinal.scn P s).after { st := x.state.st, matched := fun _ => 0 } v).matched i = _
  have b1 := lt_of_le_of_lt (positions_le L (u ++ v)) hlen
  have b2 := lt_of_le_of_lt (positions_le L u) hlu
  have b3 := a2 i
  have b4 : positions L u ≤ positions L (u ++ v) := by
    classical
    unfold positions
    refine List.Sublist.length_le (List.Sublist.filter _ ?_)
    have : u.inits <+: (u ++ v).inits := by
      rw [List.inits_append]
      exact List.prefix_append _ _
    exact this.sublist
  generalize ((HalfFinal.scn P s).after { st := x.state.st, matched := fun _ => 0 } v).matched i = z at *
  simp only [Nat.add_zero] at h3
  omega

/-- The scanner states of a valid scanner fit into a `size_t`. -/
theorem C67_storable (hv : Valid P s) {u : List Nat} (hu : IsWord u) : ((HalfFinal.scn P s).after (HalfFinal.scn P s).initial u).st < 2 ^ 64 := by
  obtain ⟨T, hT⟩ := hv
  rw [(run_spec u).1]
  obtain ⟨q, hq, e⟩ := hT.toCore.reached ⟨u, hu, rfl⟩
  rw [e]
  have := indexToState_lt hT.fits (by rw [hT.states]; exact hq)
  have := rowBytes_pos P s.m
  omega

/-- So everything counted before is lost: a state that has counted anything does not come back. -/
theorem C67_counts_are_lost {x : Stored} {i : Nat} (hi : i < x.size) (hc : x.state.matched i ≠ 0) (h1 : x.state.st < 2 ^ 64) (h2 : x.size < 2 ^ 64)
    {y : Stored} {rest rest' : Bytes} (hy : Stored.load (x.save ++ rest) = some (y, rest')) : x.same y = false ∧ y.state.result i = 0 := by
  rw [C67_roundtrip x h1 h2] at hy
  simp only [Option.some.injEq, Prod.mk.injEq] at hy
  obtain ⟨rfl, rfl⟩ := hy
  refine ⟨?_, rfl⟩
  rw [Bool.eq_false_iff]
  intro h
  unfold Stored.same at h
  rw [Bool.and_eq_true, List.all_eq_true] at h
  exact hc (by simpa using h.2 i (List.mem_range.2 hi))

/-- A state that has counted nothing does come back. -/
theorem C67_fresh_state {x : Stored} (hc : ∀ i, x.state.matched i = 0) (h1 : x.state.st < 2 ^ 64) (h2 : x.size < 2 ^ 64) (rest : Bytes) :
    Stored.load (x.save ++ rest) = some (x, rest) := by
  rw [C67_roundtrip x h1 h2]
  have : x.state.matched = fun _ => 0 := funext hc
  rw [← this]

/-- Input with another header, or too short, is rejected. -/
theorem C67_truncated (x : Stored) (n : Nat) (hn : n < x.save.length) : Stored.load (x.save.take n) = none := by
  have hl : x.save.length = 40 := by
    unfold Stored.save
    simp only [List.length_append, length_header, length_alignSave, length_le]
    rfl
  cases hc : Stored.load (x.save.take n) with
  | none => rfl
  | some r =>
    exfalso
    unfold Stored.load at hc
    simp only [Option.bind_eq_some_iff] at hc
    obtain ⟨⟨h, r1⟩, e1, ⟨y, r2⟩, e2, r3, e3, -⟩ := hc
    obtain ⟨a, b, e4, l1, l2, -⟩ := loadHeader_some e1
    obtain ⟨e5, l3⟩ := take_some e2
    obtain ⟨z, e6, l4⟩ := alignLoad_some e3
    have := congrArg List.length e4
    simp only at e5
    rw [e5] at this
    simp only [List.length_take, List.length_append, l1, l2, l3, headerLen] at this
    have h24 : tail 24 = 0 := rfl
    rw [headerLen] at l2
    omega

/-- non-vacuity: the counter of all ends of `aa`. After `aa` (one end) its state is saved and loaded; after another `aa` it tells 2 instead of 3. -/
example (P : Policy) (hP : Typedef P) (base : Nat) (hal : base % 8 = 0) (hb : base ≤ 2 ^ 63) : ∃ f g y, build aaExpr = some f ∧
    makeNonGreedyCounter true false f = some g ∧
    Stored.load (stored (ofHalfFinal P base g) ((HalfFinal.scn P (ofHalfFinal P base g)).after (HalfFinal.scn P (ofHalfFinal P base g)).initial [97, 97])).save = some (y, []) ∧
    ((HalfFinal.scn P (ofHalfFinal P base g)).after y.state [97, 97]).result 0 = 2 := by
  obtain ⟨f, hf, hg, ht, -, hl, hc⟩ := aa_counters
  obtain ⟨g, h1⟩ := hc true false
  obtain ⟨hv, he, hr⟩ := counter_recognizes hP hg ht h1 hal hb
  have hw : IsWord [97, 97, 97, 97] := by unfold IsWord; decide
  have hst := C67_storable hv (u := [97, 97]) (by unfold IsWord; decide)
  have hsz : (stored (ofHalfFinal P base g) ((HalfFinal.scn P (ofHalfFinal P base g)).after (HalfFinal.scn P (ofHalfFinal P base g)).initial [97, 97])).size < 2 ^ 64 := by
    have := hr.count
    unfold Multi.regexpsCount at this
    rw [he] at this
    show (ofHalfFinal P base g).m.regexpsCount < _
    rw [show (ofHalfFinal P base g).m.regexpsCount = 1 from this]
    norm_num
  have hload := C67_roundtrip _ hst hsz []
  rw [List.append_nil] at hload
  refine ⟨f, g, _, hf, h1, hload, ?_⟩
  have hlang : ∀ w, IsWord w → positions (counterLang true false f.Lang) w = (w.inits.filter fun u => decide ([97, 97] <:+ u)).length := by
    intro w hw
    refine (positions_congr (L' := ends f.Lang) fun u hu => mem_ends_iff (hw.of_prefix hu)).trans ?_
    refine positions_eq_filter (fun u => ?_) w
    rw [decide_eq_true_eq]
    constructor
    · rintro ⟨x, l, hm, rfl⟩; rw [hl] at hm; cases hm; exact ⟨x, rfl⟩
    · rintro ⟨x, rfl⟩; exact ⟨x, [97, 97], by rw [hl]; rfl, rfl⟩
  have := (C67_counts_since_loaded hr (i := 0) (L := counterLang true false f.Lang) rfl (u := [97, 97]) (v := [97, 97]) hw (by norm_num) rfl hst hsz (by rw [List.append_nil]; exact hload)).1
  rw [this, hlang ([97, 97] ++ [97, 97]) hw, hlang [97, 97] (by unfold IsWord; decide)]
  decide

end
end Pire.Props
