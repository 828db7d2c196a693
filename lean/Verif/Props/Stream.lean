import Verif.Proofs.Stream
import Verif.Props.Simple
import Verif.Props.Io

/-!
# Property C70: streams

The other properties of `Load` (C35, C49, ...) take a stream for a list of bytes that throws an exception at its end. Here is what that means for real streams: a
`std::istream` with a mask of exceptions on a stream buffer that is a file, a `MemoryInput` or an `AlignedInput` on one of them.
-/

namespace Pire.Props

open Pire Pire.Spec Pire.Io Stream

section
variable {σ α : Type} {S : Source σ} {s : σ} {b : Bytes}

/-- What is read from the buffer are these bytes, and nothing after them: asked for `n` bytes, it delivers the next `n`, or all that remain. -/
def Delivers (S : Source σ) (s : σ) (b : Bytes) : Prop :=
  ∃ R : σ → Bytes → Prop, R s b ∧ ∀ s b, R s b → ∀ n, ∃ s', S.getn s n = some (b.take n, s') ∧ R s' (b.drop n)

theorem Delivers.read (h : Delivers S s b) (n : Nat) : ∃ s', S.getn s n = some (b.take n, s') ∧ Delivers S s' (b.drop n) := by
  obtain ⟨R, h1, h2⟩ := h
  obtain ⟨s', e, h3⟩ := h2 s b h1 n
  exact ⟨s', e, R, h3, h2⟩

theorem delivers_alike : Alike S plain (Delivers S) := by
  intro s b h n
  obtain ⟨s', e, h'⟩ := h.read n
  exact ⟨b.take n, s', b.drop n, e, rfl, h'⟩

theorem Alike.delivers {R : σ → Bytes → Prop} (h : Alike S plain R) (hr : R s b) : Delivers S s b := by
  refine ⟨R, hr, fun s b hr n => ?_⟩
  obtain ⟨x, s', t', h1, h2, h3⟩ := h s b hr n
  rw [getn_plain, Option.some.injEq, Prod.mk.injEq] at h2
  obtain ⟨rfl, rfl⟩ := h2
  exact ⟨s', h1, h3⟩

/-- A file does. -/
theorem C70_file (b : Bytes) : Delivers plain b b :=
  ⟨fun s b => s = b, rfl, by rintro s b rfl n; exact ⟨_, rfl, rfl⟩⟩

/-- A `MemoryInput` does, up to 2 GB. -/
theorem C70_memory (b : Bytes) (h : b.length < 2 ^ 31) : Delivers memory ⟨b, 0⟩ b :=
  Alike.delivers memory_alike ⟨h, Nat.zero_le _, rfl⟩

/-- An `AlignedInput` delivers what the stream it reads from does. -/
theorem C70_aligned_input (h : Delivers S s b) (k : Nat) : Delivers (counting S) (s, k) b :=
  Alike.delivers (counting_alike delivers_alike) h

/-- `Load` from a stream is the given function on bytes: if that succeeds, so does `Load`, with the same result, and the rest of the bytes remain in the stream, whose state is
still good; if it fails, `Load` throws, given that the stream throws at its end; without that, it throws or the stream has failed. -/
def LoadsLike (p : Loader α) (load : Bytes → Option (α × Bytes)) : Prop :=
  ∀ (σ : Type) (S : Source σ) (s : σ) (b : Bytes) (mask : Flags), Delivers S s b →
    (∀ a rest, load b = some (a, rest) → ∃ s', p.run S mask (s, .good) = .ok (a, (s', .good)) ∧ Delivers S s' rest) ∧
    (load b = none → (mask.eof = true ∨ mask.fail = true → p.run S mask (s, .good) = .throws) ∧
      (p.run S mask (s, .good) = .throws ∨ ∃ a s', p.run S mask (s, .good) = .ok (a, (s', ⟨true, true⟩))))

theorem good_good : Flags.good.Good := ⟨rfl, rfl⟩

theorem SameEnd.ok_right {τ : Type} {R : σ → τ → Prop} {x : Ended (α × (σ × Flags))} {a : α} {t : τ} {f : Flags} (h : SameEnd R x (.ok (a, (t, f)))) :
    ∃ s', x = .ok (a, (s', f)) ∧ R s' t := by
  cases h with
  | ok hr => exact ⟨_, rfl, hr⟩

theorem SameEnd.throws_right {τ : Type} {R : σ → τ → Prop} {x : Ended (α × (σ × Flags))} (h : SameEnd R x (.throws : Ended (α × (τ × Flags)))) : x = .throws := by
  cases h; rfl

theorem loadsLike {p : Loader α} {load : Bytes → Option (α × Bytes)} (h : ∀ b, p.strict b = load b) : LoadsLike p load := by
  intro σ S s b mask hd
  have hr := run_alike delivers_alike mask p Flags.good hd
  refine ⟨fun a rest hl => ?_, fun hl => ?_⟩
  · rw [run_complete p good_good ((h b).trans hl)] at hr
    exact SameEnd.ok_right hr
  · rcases run_incomplete (mask := mask) p good_good ((h b).trans hl) with e | ⟨m1, m2, a, r, e⟩
    · rw [e] at hr
      have := SameEnd.throws_right hr
      exact ⟨fun _ => this, .inl this⟩
    · rw [e] at hr
      obtain ⟨s', e', -⟩ := SameEnd.ok_right hr
      refine ⟨fun hm => ?_, .inr ⟨a, s', e'⟩⟩
      rw [m1, m2] at hm
      simp at hm

/-- `Scanner` and the other multi-regexp scanners. -/
theorem C70_scanner (u : Nat → Nat → Fin 256) (P : Policy) (null rnull : Multi) (tmp base : Nat) :
    LoadsLike (multi u P null rnull tmp base) (Multi.load P null rnull tmp base) := loadsLike (multi_strict u P null rnull tmp base)

/-- `SimpleScanner`. -/
theorem C70_simple (u : Nat → Nat → Fin 256) (null : Simple) (base : Nat) : LoadsLike (simple u null base) (Simple.load null base) :=
  loadsLike (simple_strict u null base)

/-- `SlowScanner`. -/
theorem C70_slow (u : Nat → Nat → Fin 256) (null : Slow) : LoadsLike (slow u null) (Slow.load null) := loadsLike (slow_strict u null)

/-- `SlowCapturingScanner`. -/
theorem C70_slow_capturing (u : Nat → Nat → Fin 256) (self : Capture.SlowCap) : LoadsLike (slowCap u self) (Capture.SlowCap.load self) :=
  loadsLike (slowCap_strict u self)

/-- `CountingScanner`, `AdvancedCountingScanner`, `CapturingScanner`. -/
theorem C70_loaded (u : Nat → Nat → Fin 256) (base : Nat) : LoadsLike (loaded u base) (Loaded.load base) := loadsLike (loaded_strict u base)

/-- `NoGlueLimitCountingScanner`. -/
theorem C70_no_limit (u : Nat → Nat → Fin 256) (self : Count.NoLimit) (base : Nat) : LoadsLike (noLimit u self base) (Count.NoLimit.load self base) :=
  loadsLike (noLimit_strict u self base)

/-- The state of a `HalfFinalScanner`. -/
theorem C70_half_final_state : LoadsLike halfFinalState HalfFinal.Stored.load := loadsLike halfFinalState_strict

/-- So whoever looks at the state of the stream after `Load` cannot be deceived: if it has not failed, the scanner is the one that was stored. -/
theorem C70_check_the_stream {p : Loader α} {load : Bytes → Option (α × Bytes)} (h : LoadsLike p load) (mask : Flags) (hd : Delivers S s b) {a : α} {s' : σ} {f : Flags}
    (hr : p.run S mask (s, .good) = .ok (a, (s', f))) (hf : f.fail = false) : ∃ rest, load b = some (a, rest) ∧ Delivers S s' rest := by
  obtain ⟨h1, h2⟩ := h σ S s b mask hd
  cases hl : load b with
  | none =>
    rcases (h2 hl).2 with e | ⟨a', s'', e⟩
    · rw [e] at hr; cases hr
    · rw [e] at hr
      cases hr
      cases hf
  | some x =>
    obtain ⟨a', rest⟩ := x
    obtain ⟨s'', e, hd'⟩ := h1 a' rest hl
    rw [e] at hr
    cases hr
    exact ⟨rest, rfl, hd'⟩

end

/-! ### Streams that do not throw

A `std::ifstream`, and an `AlignedInput` on any stream, throw nothing unless told to. `Load` does not look at the state of the stream, so a stream that ends within the tables
is loaded without complaint: the rest of the table is what the memory happened to contain. -/

theorem unnoticed {σ α : Type} {S : Source σ} {t : σ} {b : Bytes} {p : Loader α} {x : α} (hd : Delivers S t b)
    (h : p.run plain noMask (b, .good) = .ok (x, ([], ⟨true, true⟩))) : ∃ t', p.run S noMask (t, .good) = .ok (x, (t', ⟨true, true⟩)) := by
  have hr := run_alike delivers_alike noMask p Flags.good hd
  rw [h] at hr
  obtain ⟨t', e, -⟩ := SameEnd.ok_right hr
  exact ⟨t', e⟩

/-- `SimpleScanner`, cut anywhere after the 48 bytes before the table: for every continuation `c` that makes it complete, what is loaded may be the scanner that would be loaded from that. -/
theorem C70_truncated_unnoticed_simple {s : Simple} (hv : s.Valid) (null : Simple) (base : Nat) {k : Nat} (h1 : 48 ≤ k) (h2 : k < s.save.length) {c : Bytes}
    (hc : (s.save.take k ++ c).length = s.save.length) :
    ∃ u x, Simple.load null base (s.save.take k ++ c) = some (x, []) ∧
      ∀ (σ : Type) (S : Source σ) (t : σ), Delivers S t (s.save.take k) → ∃ t', (simple u null base).run S noMask (t, .good) = .ok (x, (t', ⟨true, true⟩)) := by
  obtain ⟨⟨T, hT⟩, he, hb⟩ := hv
  have hlen := Simple.length_save s
  rw [he, if_neg (by decide)] at hlen
  have hlt := hT.bufSize_lt hb
  have hsv := Simple.save_assoc s []
  rw [List.append_nil, he, if_neg (by decide), if_neg (by decide), List.append_nil, show alignSave (Simple.bufSize s.statesCount) = [] by
    rw [alignSave, Simple.tail_buf]; rfl, List.append_nil] at hsv
  have hpre : ∀ d : Bytes, (Header.mk' 2 Simple.localsLen).bytes ++ alignSave headerLen ++ ((le 8 s.statesCount ++ le 8 s.savedInitial) ++ (alignSave Simple.localsLen ++
      (le 1 0 ++ (alignSave 1 ++ d)))) = ((Header.mk' 2 Simple.localsLen).bytes ++ alignSave headerLen ++ ((le 8 s.statesCount ++ le 8 s.savedInitial) ++ (alignSave Simple.localsLen ++
      (le 1 0 ++ alignSave 1)))) ++ d := by intro d; simp only [List.append_assoc]
  have hpl : ((Header.mk' 2 Simple.localsLen).bytes ++ alignSave headerLen ++ ((le 8 s.statesCount ++ le 8 s.savedInitial) ++ (alignSave Simple.localsLen ++
      (le 1 0 ++ alignSave 1)))).length = 48 := by
    simp only [List.length_append, length_header, length_le, length_alignSave]
    rfl
  rw [hpre] at hsv
  have htk : s.save.take k = ((Header.mk' 2 Simple.localsLen).bytes ++ alignSave headerLen ++ ((le 8 s.statesCount ++ le 8 s.savedInitial) ++ (alignSave Simple.localsLen ++
      (le 1 0 ++ alignSave 1)))) ++ s.blockBytes.take (k - 48) := by
    rw [hsv, List.take_append, hpl, List.take_of_length_le (by omega)]
  have hbl := Simple.length_blockBytes s
  have hcl : c ≠ [] := by
    rintro rfl
    rw [List.append_nil, List.length_take] at hc
    omega
  have hdl : (s.blockBytes.take (k - 48) ++ c).length = Simple.bufSize s.statesCount % 2 ^ 64 := by
    rw [htk, List.append_assoc, List.length_append, hpl, hlen] at hc
    rw [Nat.mod_eq_of_lt hlt]
    omega
  obtain ⟨x, e1, e2⟩ := simple_cut (null := null) (base := base) hT.states_lt s.savedInitial_lt hcl hdl good_good
  rw [hpre] at e1 e2
  exact ⟨_, x, by rw [htk, List.append_assoc]; exact e1, fun σ S t hd => unnoticed hd (by rw [htk]; exact e2)⟩

theorem reloc_truncated {P : Policy} {s : Multi} {T : Tbl} (hP : P.Real) (hr : P.reloc = .relocatable) (hT : Multi.Repr P s T) (hm : Multi.Storable P s.m) (he : s.empty = false)
    (pad : Nat → Fin 256) (null : Multi) (base : Nat) {k : Nat} (h1 : 80 ≤ k) (h2 : k < (Multi.saveReloc P pad s).length) {c : Bytes}
    (hc : ((Multi.saveReloc P pad s).take k ++ c).length = (Multi.saveReloc P pad s).length) :
    ∃ u x, Multi.loadReloc P null base ((Multi.saveReloc P pad s).take k ++ c) = some (x, []) ∧
      (reloc u P null base).run plain noMask ((Multi.saveReloc P pad s).take k, .good) = .ok (x, ([], ⟨true, true⟩)) := by
  have hlen := Multi.length_saveReloc P pad s
  rw [he, if_neg (by decide)] at hlen
  have hlt := Multi.bufSize_lt hr hT.fits hm
  have hsv := Multi.saveReloc_assoc P pad s []
  rw [List.append_nil, he, if_neg (by decide), if_neg (by decide), List.append_nil, show alignSave (Multi.bufSize P s.m) = [] by
    rw [alignSave, Multi.tail_bufSize]; rfl, List.append_nil] at hsv
  generalize hL : Multi.localsBytes (s.m.withInitial ((s.m.initial + 2 ^ 64 - s.trans) % 2 ^ 64)) pad = L at hsv
  have hLl : L.length = 48 := by rw [← hL]; exact Multi.length_localsBytes _ _
  have hpre : ∀ d : Bytes, (Header.mk' 1 Multi.localsLen).bytes ++ alignSave headerLen ++ (L ++ (alignSave Multi.localsLen ++
      (le 1 0 ++ (alignSave 1 ++ d)))) = ((Header.mk' 1 Multi.localsLen).bytes ++ alignSave headerLen ++ (L ++ (alignSave Multi.localsLen ++
      (le 1 0 ++ alignSave 1)))) ++ d := by intro d; simp only [List.append_assoc]
  have hpl : ((Header.mk' 1 Multi.localsLen).bytes ++ alignSave headerLen ++ (L ++ (alignSave Multi.localsLen ++
      (le 1 0 ++ alignSave 1)))).length = 80 := by
    simp only [List.length_append, length_header, length_le, length_alignSave, hLl]
    rfl
  rw [hpre] at hsv
  have htk : (Multi.saveReloc P pad s).take k = ((Header.mk' 1 Multi.localsLen).bytes ++ alignSave headerLen ++ (L ++ (alignSave Multi.localsLen ++
      (le 1 0 ++ alignSave 1)))) ++ (Multi.blockBytes P s).take (k - 80) := by
    rw [hsv, List.take_append, hpl, List.take_of_length_le (by omega)]
  have hbl := Multi.length_blockBytes P s
  have hcl : c ≠ [] := by
    rintro rfl
    rw [List.append_nil, List.length_take] at hc
    omega
  have hbuf : Multi.bufSize P (Multi.savedLocals s) = Multi.bufSize P s.m :=
    (Multi.bufSize_congr (Multi.savedLocals_states s) (Multi.savedLocals_letters s) (Multi.savedLocals_finals s)).1
  have hdl : ((Multi.blockBytes P s).take (k - 80) ++ c).length = Multi.bufSize P (Multi.savedLocals s) % 2 ^ 64 := by
    rw [htk, List.append_assoc, List.length_append, hpl, hlen] at hc
    rw [hbuf, Nat.mod_eq_of_lt (by omega)]
    omega
  obtain ⟨x, e1, e2⟩ := reloc_cut (P := P) (null := null) (base := base) hP (Multi.savedLocals_storable hm)
    (by rw [Multi.savedLocals_initial]; exact Nat.mod_lt _ (by omega)) pad hcl hdl (by rw [hbuf, Nat.mod_eq_of_lt (by omega), Multi.tail_bufSize]) good_good
  have hL' : Multi.localsBytes (Multi.savedLocals s) pad = L := by rw [← hL]; unfold Multi.savedLocals; rfl
  rw [hL', hpre] at e1 e2
  exact ⟨_, x, by rw [htk, List.append_assoc]; exact e1, by rw [htk]; exact e2⟩

/-- The same for `Scanner` and the other multi-regexp scanners, cut anywhere after the 80 bytes before the tables. -/
theorem C70_truncated_unnoticed {P : Policy} {s null rnull : Multi} {tmp tmp' base : Nat} {pad : Nat → Fin 256} (hP : Typedef P) (hv : Multi.Valid P s) (hm : Multi.Storable P s.m)
    (he : s.empty = false) (hf : Multi.Fits P.toReloc tmp s.m) {k : Nat} (h1 : 80 ≤ k) (h2 : k < (Multi.save P pad rnull tmp s).length) {c : Bytes}
    (hc : ((Multi.save P pad rnull tmp s).take k ++ c).length = (Multi.save P pad rnull tmp s).length) :
    ∃ u x, Multi.load P null rnull tmp' base ((Multi.save P pad rnull tmp s).take k ++ c) = some (x, []) ∧
      ∀ (σ : Type) (S : Source σ) (t : σ), Delivers S t ((Multi.save P pad rnull tmp s).take k) →
        ∃ t', (multi u P null rnull tmp' base).run S noMask (t, .good) = .ok (x, (t', ⟨true, true⟩)) := by
  obtain ⟨T, hT⟩ := hv
  cases hr : P.reloc with
  | relocatable =>
    have es : Multi.save P pad rnull tmp s = Multi.saveReloc P pad s := by unfold Multi.save; rw [hr]
    rw [es] at h2 hc ⊢
    obtain ⟨u, x, e1, e2⟩ := reloc_truncated hP.real hr hT hm he pad null base h1 h2 hc
    refine ⟨u, x, by unfold Multi.load; rw [hr]; exact e1, fun σ S t hd => unnoticed hd ?_⟩
    unfold multi
    rw [hr]
    exact e2
  | nonrelocatable =>
    have es : Multi.save P pad rnull tmp s = Multi.saveReloc P.toReloc pad (Multi.deepCopy P.toReloc P tmp s) := by
      unfold Multi.save Multi.convert; rw [hr]; dsimp only; rw [he, if_neg (by decide)]
    rw [es] at h2 hc ⊢
    obtain ⟨c1, c2, c3, c4, c5, c6, c7, c8⟩ := Multi.deepCopy_m P.toReloc P tmp s
    have hd := Multi.deepCopy_repr (base := tmp) hP.toReloc.real hP.real rfl hT (fits_congr c1 c2 c3 hf)
    obtain ⟨u, x, e1, e2⟩ := reloc_truncated hP.toReloc.real rfl hd (Multi.storable_deepCopy tmp hm) c5 pad rnull tmp' h1 h2 hc
    refine ⟨u, Multi.convert P P.toReloc null base x, by unfold Multi.load; rw [hr]; dsimp only; rw [e1]; rfl, fun σ S t hd => unnoticed hd ?_⟩
    unfold multi
    rw [hr]
    dsimp only
    rw [run_bind, e2]
    rfl

/-! ### `AlignedOutput` and `AlignedInput` -/

/-- The pieces that were written. -/
def piecesOf : List Written → List Bytes
  | [] => []
  | .bytes b :: ws => b :: piecesOf ws
  | .align _ :: ws => piecesOf ws

/-- `Align(2^k)` makes the number of bytes a multiple of `2^k`, with fewer than `2^k` bytes. -/
theorem C70_align_aligns {k count : Nat} (hk : k < 64) (hc : count < 2 ^ 63) : 2 ^ k ∣ count + padding (2 ^ k) count ∧ padding (2 ^ k) count < 2 ^ k := by
  have hp : 0 < 2 ^ k := Nat.two_pow_pos k
  have hle : 2 ^ k ≤ 2 ^ 63 := Nat.pow_le_pow_right (by omega) (by omega)
  have e : (2 ^ k + (2 ^ 64 - 1)) % 2 ^ 64 = 2 ^ k - 1 := by omega
  have hr : count &&& (2 ^ k - 1) = count % 2 ^ k := Nat.and_two_pow_sub_one_eq_mod count k
  have hm := Nat.mod_lt count hp
  unfold padding
  rw [e, hr]
  dsimp only
  split_ifs with h
  · have e2 : (2 ^ k + (2 ^ 64 - count % 2 ^ k)) % 2 ^ 64 = 2 ^ k - count % 2 ^ k := by omega
    rw [e2]
    refine ⟨?_, by omega⟩
    have := Nat.div_add_mod count (2 ^ k)
    exact ⟨count / 2 ^ k + 1, by rw [Nat.mul_add]; omega⟩
  · exact ⟨by simpa using Nat.dvd_of_mod_eq_zero (by omega), hp⟩

theorem write_append (ws : List Written) : ∀ out : Bytes, ∃ t, write ws out = out ++ t := by
  induction ws with
  | nil => intro out; exact ⟨[], by rw [List.append_nil]; rfl⟩
  | cons w ws ih =>
    intro out
    cases w with
    | bytes b => obtain ⟨t, e⟩ := ih (out ++ b); exact ⟨b ++ t, by rw [write, e, List.append_assoc]⟩
    | align d => obtain ⟨t, e⟩ := ih (out ++ List.replicate (padding d out.length) 204); exact ⟨List.replicate (padding d out.length) 204 ++ t, by rw [write, e, List.append_assoc]⟩

theorem read_delivers {σ : Type} {S : Source σ} {s : σ} {x r : Bytes} (h : Delivers S s (x ++ r)) (n : Nat) (mask : Flags) (old : Bytes) :
    ∃ s', Stream.read (counting S) mask ((s, n), .good) x.length old = .ok (x, ((s', n + x.length), .good)) ∧ Delivers S s' r := by
  obtain ⟨s', e, h'⟩ := h.read x.length
  rw [List.take_left] at e
  rw [List.drop_left] at h'
  exact ⟨s', read_good good_good _ _ (by unfold counting; dsimp only; rw [e]; rfl) rfl, h'⟩

theorem readBack_write {σ : Type} {S : Source σ} (ws : List Written) : ∀ (out t rest : Bytes) (s : σ), write ws out = out ++ t → Delivers S s (t ++ rest) →
    ∃ s', readBack S ws ((s, out.length), .good) = .ok (piecesOf ws, ((s', (write ws out).length), .good)) ∧ Delivers S s' rest := by
  induction ws with
  | nil =>
    intro out t rest s h hd
    have : t = [] := by
      have h' : out ++ [] = out ++ t := by rw [List.append_nil]; exact h
      exact (List.append_cancel_left h').symm
    subst this
    exact ⟨s, rfl, hd⟩
  | cons w ws ih =>
    intro out t rest s h hd
    cases w with
    | bytes b =>
      obtain ⟨t', e⟩ := write_append ws (out ++ b)
      rw [write] at h
      have ht : t = b ++ t' := by
        rw [e, List.append_assoc] at h
        exact (List.append_cancel_left h).symm
      subst ht
      rw [List.append_assoc] at hd
      obtain ⟨s1, e1, h1⟩ := read_delivers hd out.length noMask (List.replicate b.length 0)
      obtain ⟨s2, e2, h2⟩ := ih (out ++ b) t' rest s1 e h1
      rw [List.length_append] at e2
      exact ⟨s2, by rw [readBack, e1]; dsimp only; rw [e2]; rfl, h2⟩
    | align d =>
      obtain ⟨t', e⟩ := write_append ws (out ++ List.replicate (padding d out.length) 204)
      rw [write] at h
      have ht : t = List.replicate (padding d out.length) 204 ++ t' := by
        rw [e, List.append_assoc] at h
        exact (List.append_cancel_left h).symm
      subst ht
      rw [List.append_assoc] at hd
      rw [readBack, write]
      dsimp only
      split_ifs with h0
      · rw [h0] at hd e ⊢
        rw [List.replicate_zero, List.nil_append] at hd
        rw [List.replicate_zero, List.append_nil] at e ⊢
        exact ih out t' rest s e hd
      · obtain ⟨s1, e1, h1⟩ := read_delivers hd out.length noMask (List.replicate (padding d out.length) 0)
        rw [List.length_replicate] at e1
        obtain ⟨s2, e2, h2⟩ := ih _ t' rest s1 e h1
        rw [List.length_append, List.length_replicate] at e2
        exact ⟨s2, by rw [e1]; exact e2, h2⟩

/-- What has been written with an `AlignedOutput`, pieces and alignments in any order, is read back with the same sequence by an `AlignedInput`; what follows in the stream is left there. -/
theorem C70_aligned_round_trip {σ : Type} {S : Source σ} {s : σ} (ws : List Written) (rest : Bytes) (h : Delivers S s (write ws [] ++ rest)) :
    ∃ s', readBack S ws ((s, 0), .good) = .ok (piecesOf ws, ((s', (write ws []).length), .good)) ∧ Delivers S s' rest :=
  readBack_write ws [] (write ws []) rest s (List.nil_append _).symm h

/-! ### What is wrong with the stream buffers -/

/-- Reading exactly 4 GB from a `MemoryInput` does not advance it: the same bytes are delivered again (`gbump` takes an `int`). -/
theorem C70_memory_four_gigabytes (b : Bytes) (h : 2 ^ 32 ≤ b.length) : memory.getn ⟨b, 0⟩ (2 ^ 32) = some (b.take (2 ^ 32), ⟨b, 0⟩) := by
  have e : min (2 ^ 32) (b.length - 0) = 2 ^ 32 := by omega
  unfold memory
  dsimp only
  rw [e]
  rfl

/-- Reading 2 GB moves it to 2 GB before the beginning of the data. -/
theorem C70_memory_two_gigabytes (b : Bytes) (h : 2 ^ 31 ≤ b.length) : memory.getn ⟨b, 0⟩ (2 ^ 31) = none := by
  have e : min (2 ^ 31) (b.length - 0) = 2 ^ 31 := by omega
  unfold memory
  dsimp only
  rw [e]
  rfl

/-- `get()` from an `AlignedInput` returns the first character again and again. -/
theorem C70_get_repeats (c : Fin 256) (b : Bytes) (n : Nat) : getMany n (c :: b, none) = some (List.replicate n c) := by
  induction n with
  | zero => rfl
  | succ n ih =>
    rw [getMany]
    show (getMany n (c :: b, none)).map (c :: ·) = _
    rw [ih]
    rfl

/-! ### Concrete cases -/

/-- The scanner for texts with `ab` somewhere, through an `AlignedInput` on a `MemoryInput`: it is loaded; and cut in the middle of its table it is "loaded" as well. -/
example : ∃ (s null : Simple) (x : Simple), Simple.Recognizes s abAnywhere.den ∧
    (s.save.length < 2 ^ 31 → ∀ u, ∃ t', (simple u null 4096).run (counting memory) noMask ((⟨s.save, 0⟩, 0), .good) = .ok (x, (t', .good)) ∧ Simple.Recognizes x abAnywhere.den) ∧
    (s.save.length < 2 ^ 31 → ∀ c : Bytes, c.length = s.save.length - 48 → ∃ u y t', Simple.load null 4096 (s.save.take 48 ++ c) = some (y, []) ∧
      (simple u null 4096).run (counting memory) noMask ((⟨s.save.take 48, 0⟩, 0), .good) = .ok (y, (t', ⟨true, true⟩))) := by
  obtain ⟨f, s, hf, hs, hv, hR, hn⟩ := abAnywhere_simple 64 rfl (by omega) (by omega)
  have hsp : 4096 + Simple.bufSize s.statesCount ≤ 2 ^ 64 := by
    have hM : Simple.rowSize = 265 := rfl
    unfold Simple.bufSize; rw [hM]; omega
  obtain ⟨x, e1, e2, e3⟩ := C35_simple_round_trip hv hR s (base := 4096) rfl (by omega) hsp []
  rw [List.append_nil] at e1
  refine ⟨s, s, x, hR, fun hl u => ?_, fun hl c hc => ?_⟩
  · obtain ⟨t', e, -⟩ := (C70_simple u s 4096 _ _ _ s.save noMask (C70_aligned_input (C70_memory s.save hl) 0)).1 x [] e1
    exact ⟨t', e, e2⟩
  · have hlen := Simple.length_save s
    rw [hv.2.1, if_neg (by decide)] at hlen
    have hpos : 0 < Simple.bufSize s.statesCount := by
      obtain ⟨⟨T, hT⟩, -⟩ := hv
      have := hT.initial_bounds
      omega
    obtain ⟨u, y, e, h⟩ := C70_truncated_unnoticed_simple hv s 4096 (k := 48) le_rfl (by omega) (c := c) (by rw [List.length_append, List.length_take]; omega)
    obtain ⟨t', e'⟩ := h _ _ _ (C70_aligned_input (C70_memory (s.save.take 48) (by rw [List.length_take]; omega)) 0)
    exact ⟨u, y, t', e, e'⟩

/-- Three bytes, aligned to eight, two bytes, aligned to four. -/
example : write [.bytes [1, 2, 3], .align 8, .bytes [4, 5], .align 4] [] = [1, 2, 3, 204, 204, 204, 204, 204, 4, 5, 204, 204] := by decide

example : ∃ s', readBack memory [.bytes [1, 2, 3], .align 8, .bytes [4, 5], .align 4] ((⟨[1, 2, 3, 204, 204, 204, 204, 204, 4, 5, 204, 204, 7], 0⟩, 0), .good) =
    .ok ([[1, 2, 3], [4, 5]], ((s', 12), .good)) ∧ Delivers memory s' [7] :=
  C70_aligned_round_trip [.bytes [1, 2, 3], .align 8, .bytes [4, 5], .align 4] [7] (C70_memory _ (by decide))

/-- A stream that throws at its end notices: nothing is loaded from an empty `MemoryInput`. -/
example (u : Nat → Nat → Fin 256) (null : Simple) : (simple u null 4096).run memory memoryMask (⟨[], 0⟩, .good) = .throws :=
  ((C70_simple u null 4096 _ _ _ [] memoryMask (C70_memory [] (by decide))).2 rfl).1 (.inl rfl)

end Pire.Props
