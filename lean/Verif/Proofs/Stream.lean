import Verif.Model.Stream
import Verif.Proofs.Io
import Verif.Proofs.SimpleIo

/-!
# Loaders on streams and on lists of bytes
-/

namespace Pire
namespace Stream

open Io

variable {α β σ τ : Type}

/-- The same sequence of reads from a list of bytes that throws at its end. -/
def Loader.strict : Loader α → Bytes → Option (α × Bytes)
  | .done a, b => some (a, b)
  | .fail, _ => none
  | .read n _ k, b => (take n b).bind fun x => (k x.1).strict x.2

theorem pure_def (a : α) : (pure a : Loader α) = .done a := rfl
theorem bind_def (p : Loader α) (f : α → Loader β) : p >>= f = p.bind f := rfl

@[simp] theorem strict_done (a : α) (b : Bytes) : (Loader.done a).strict b = some (a, b) := rfl
@[simp] theorem strict_pure (a : α) (b : Bytes) : (pure a : Loader α).strict b = some (a, b) := rfl
@[simp] theorem strict_fail (b : Bytes) : (Loader.fail : Loader α).strict b = none := rfl
@[simp] theorem strict_read (n : Nat) (old : Bytes) (k : Bytes → Loader α) (b : Bytes) : (Loader.read n old k).strict b = (take n b).bind fun x => (k x.1).strict x.2 := rfl

@[simp] theorem strict_bind (p : Loader α) (f : α → Loader β) : ∀ b : Bytes, (p >>= f).strict b = (p.strict b).bind fun x => (f x.1).strict x.2 := by
  rw [bind_def]
  induction p with
  | done a => intro b; rfl
  | fail => intro b; rfl
  | read n old k ih =>
    intro b
    show (take n b).bind (fun x => ((k x.1).bind f).strict x.2) = ((take n b).bind fun x => (k x.1).strict x.2).bind _
    cases take n b with
    | none => rfl
    | some x => exact ih x.1 x.2

theorem strict_ite (c : Prop) [Decidable c] (p q : Loader α) (b : Bytes) : (if c then p else q).strict b = if c then p.strict b else q.strict b := by
  split <;> rfl

theorem take_zero (b : Bytes) : take 0 b = some ([], b) := by simp [take]

@[simp] theorem strict_aligned (n : Nat) (b : Bytes) : (aligned n).strict b = (alignLoad n b).map fun r => ((), r) := by
  unfold aligned alignLoad
  split
  · next h => rw [h, take_zero]; rfl
  · show (take (tail n) b).bind _ = _
    cases take (tail n) b <;> rfl

theorem bind_some_eta {γ : Type} (o : Option (γ × Bytes)) : (o.bind fun x => some (x.1, x.2)) = o := by cases o <;> rfl

@[simp] theorem strict_header (t h : Nat) (b : Bytes) : (header t h).strict b = loadHeader t h b := by
  unfold header loadHeader
  rw [strict_bind, strict_read]
  show _ = (take headerLen b).bind _
  cases take headerLen b with
  | none => rfl
  | some x =>
    simp only [Option.bind_some, strict_done, strict_bind, strict_aligned]
    cases alignLoad headerLen x.2 with
    | none => rfl
    | some r =>
      simp only [Option.map_some, Option.bind_some, strict_ite, strict_pure, strict_fail]
      rfl

@[simp] theorem strict_array (u : Nat → Nat → Fin 256) (i n : Nat) (b : Bytes) :
    (array u i n).strict b = (take n b).bind fun x => (alignLoad n x.2).map fun r => (x.1, r) := by
  unfold array
  rw [strict_bind, strict_read]
  cases take n b with
  | none => rfl
  | some x =>
    simp only [Option.bind_some, strict_done, strict_bind, strict_aligned]
    cases alignLoad n x.2 <;> rfl

/-! ### The loaders are those of the other models -/

theorem simple_strict (u : Nat → Nat → Fin 256) (null : Simple) (base : Nat) (b : Bytes) : (simple u null base).strict b = Simple.load null base b := by
  unfold simple Simple.load
  simp only [strict_bind, strict_header, strict_array]
  refine congrArg _ (funext fun h => ?_)
  cases take Simple.localsLen h.2 with
  | none => rfl
  | some x =>
    simp only [Option.bind_some]
    cases alignLoad Simple.localsLen x.2 with
    | none => rfl
    | some b =>
      simp only [Option.map_some, Option.bind_some]
      cases take 1 b with
      | none => rfl
      | some e =>
        simp only [Option.bind_some]
        cases alignLoad 1 e.2 with
        | none => rfl
        | some b =>
          simp only [Option.map_some, Option.bind_some, strict_ite, strict_pure, strict_bind, strict_array]
          congr 1
          cases take (Simple.bufSize (num (x.1.take 8)) % 2 ^ 64) b with
          | none => rfl
          | some y =>
            simp only [Option.bind_some]
            cases alignLoad (Simple.bufSize (num (x.1.take 8)) % 2 ^ 64) y.2 <;> rfl

theorem reloc_strict (u : Nat → Nat → Fin 256) (P : Policy) (null : Multi) (base : Nat) (b : Bytes) : (reloc u P null base).strict b = Multi.loadReloc P null base b := by
  unfold reloc Multi.loadReloc
  simp only [strict_bind, strict_header, strict_array]
  refine congrArg _ (funext fun h => ?_)
  show _ = (take Multi.localsLen h.2).bind _
  cases take Multi.localsLen h.2 with
  | none => rfl
  | some x =>
    simp only [Option.bind_some]
    show _ = (alignLoad Multi.localsLen x.2).bind _
    cases alignLoad Multi.localsLen x.2 with
    | none => rfl
    | some b =>
      simp only [Option.map_some, Option.bind_some, strict_ite, strict_fail, strict_bind, strict_array]
      congr 1
      show _ = (take 1 b).bind _
      cases take 1 b with
      | none => rfl
      | some e =>
        simp only [Option.bind_some]
        show _ = (alignLoad 1 e.2).bind _
        cases alignLoad 1 e.2 with
        | none => rfl
        | some b =>
          simp only [Option.map_some, Option.bind_some, strict_ite, strict_pure, strict_bind, strict_array]
          congr 1
          show _ = (take (Multi.bufSize P (Multi.localsOfBytes x.1) % 2 ^ 64) b).bind _
          cases take (Multi.bufSize P (Multi.localsOfBytes x.1) % 2 ^ 64) b with
          | none => rfl
          | some y =>
            simp only [Option.bind_some]
            show _ = (alignLoad (Multi.bufSize P (Multi.localsOfBytes x.1) % 2 ^ 64) y.2).bind _
            cases alignLoad (Multi.bufSize P (Multi.localsOfBytes x.1) % 2 ^ 64) y.2 <;> rfl

theorem multi_strict (u : Nat → Nat → Fin 256) (P : Policy) (null rnull : Multi) (tmp base : Nat) (b : Bytes) :
    (multi u P null rnull tmp base).strict b = Multi.load P null rnull tmp base b := by
  unfold multi Multi.load
  cases P.reloc with
  | relocatable => exact reloc_strict ..
  | nonrelocatable =>
    simp only [strict_bind, reloc_strict]
    cases Multi.loadReloc P.toReloc rnull tmp b <;> rfl

theorem take_some {n : Nat} {b : Bytes} (h : n ≤ b.length) : take n b = some (b.take n, b.drop n) := by
  rw [take, if_pos h]; simp

theorem take_none {n : Nat} {b : Bytes} (h : b.length < n) : take n b = none := by
  rw [take, if_neg (by omega)]

theorem takeNums_eq (k : Nat) : ∀ (n : Nat) (b : Bytes), Slow.takeNums k n b = (take (n * k) b).map fun x => (numbers k n x.1, x.2)
  | 0, b => by rw [Nat.zero_mul, take_zero]; rfl
  | n + 1, b => by
    rw [Slow.takeNums]
    by_cases h : k ≤ b.length
    · rw [take_some h]
      simp only [Option.bind_some]
      rw [takeNums_eq k n]
      by_cases h2 : n * k ≤ (b.drop k).length
      · have h3 : (n + 1) * k ≤ b.length := by rw [List.length_drop] at h2; rw [Nat.add_mul]; omega
        rw [take_some h2, take_some h3]
        simp only [Option.map_some, Option.some.injEq, Prod.mk.injEq, List.drop_drop]
        refine ⟨?_, by rw [Nat.add_mul]; congr 1; omega⟩
        rw [numbers]
        congr 1
        · rw [List.take_take]; congr 2; rw [Nat.add_mul]; omega
        · rw [List.drop_take]; congr 2; rw [Nat.add_mul]; omega
      · have h3 : b.length < (n + 1) * k := by rw [List.length_drop] at h2; rw [Nat.add_mul]; omega
        rw [take_none (by omega), take_none h3]
        rfl
    · have h3 : b.length < (n + 1) * k := by rw [Nat.add_mul]; omega
      rw [take_none (by omega), take_none h3]
      rfl

theorem vectors_strict : ∀ (ns : List Nat) (b : Bytes), (vectors ns).strict b = Slow.takeVecs ns b
  | [], b => rfl
  | n :: ns, b => by
    rw [vectors, Slow.takeVecs, takeNums_eq]
    by_cases h : n = 0
    · subst h
      rw [Nat.zero_mul, take_zero, if_pos rfl]
      simp only [strict_bind, strict_pure, vectors_strict ns, Option.bind_some, Option.map_some]
      cases Slow.takeVecs ns b <;> rfl
    · rw [if_neg h]
      simp only [strict_bind, strict_pure, vectors_strict ns, strict_read, strict_done]
      cases take (n * 4) b with
      | none => rfl
      | some x =>
        simp only [Option.bind_some, Option.map_some]
        cases Slow.takeVecs ns x.2 <;> rfl

theorem positions_strict (u : Nat → Nat → Fin 256) : ∀ (n : Nat) (b : Bytes), (positions u n).strict b = Slow.takeNums 8 n b
  | 0, b => rfl
  | n + 1, b => by
    rw [positions, Slow.takeNums]
    simp only [strict_bind, strict_pure, positions_strict u n, strict_read, strict_done]
    cases take 8 b with
    | none => rfl
    | some x =>
      simp only [Option.bind_some]
      cases Slow.takeNums 8 n x.2 <;> rfl

theorem slow_strict (u : Nat → Nat → Fin 256) (null : Slow) (b : Bytes) : (slow u null).strict b = Slow.load null b := by
  unfold slow Slow.load
  simp only [strict_bind, strict_header, strict_array]
  refine congrArg _ (funext fun h => ?_)
  rw [takeNums_eq 8 3, show 3 * 8 = Slow.localsLen from rfl]
  cases take Slow.localsLen h.2 with
  | none => rfl
  | some x =>
    simp only [Option.bind_some, Option.map_some]
    cases alignLoad Slow.localsLen x.2 with
    | none => rfl
    | some b =>
      simp only [Option.map_some, Option.bind_some]
      cases take 1 b with
      | none => rfl
      | some e =>
        simp only [Option.bind_some]
        cases alignLoad 1 e.2 with
        | none => rfl
        | some b =>
          simp only [Option.map_some, Option.bind_some, strict_ite, strict_pure, strict_bind, strict_array]
          congr 1
          rw [takeNums_eq 8 MaxChar]
          cases take (MaxChar * 8) b with
          | none => rfl
          | some ls =>
            simp only [Option.bind_some, Option.map_some]
            cases alignLoad (MaxChar * 8) ls.2 with
            | none => rfl
            | some b =>
              simp only [Option.map_some, Option.bind_some]
              rw [takeNums_eq 1]
              show _ = ((take (num (x.1.take 8) * 1) b).map _).bind _
              rw [Nat.mul_one]
              cases take (num (x.1.take 8)) b with
              | none => rfl
              | some fs =>
                simp only [Option.bind_some, Option.map_some]
                show _ = (alignLoad (num (x.1.take 8)) fs.2).bind _
                cases alignLoad (num (x.1.take 8)) fs.2 with
                | none => rfl
                | some b =>
                  simp only [Option.map_some, Option.bind_some, positions_strict, vectors_strict, strict_aligned]
                  refine congrArg _ (funext fun ps => congrArg _ (funext fun vs => ?_))
                  have e : numbers 8 3 x.1 = [num (x.1.take 8), num ((x.1.drop 8).take 8), num ((x.1.drop 16).take 8)] := by
                    rw [numbers, numbers, numbers, numbers, List.drop_drop]
                  rw [e]
                  cases alignLoad (4 * vs.1.flatten.length) vs.2 <;> rfl

theorem slowCap_strict (u : Nat → Nat → Fin 256) (self : Capture.SlowCap) (b : Bytes) : (slowCap u self).strict b = Capture.SlowCap.load self b := by
  unfold slowCap Capture.SlowCap.load
  simp only [strict_bind, slow_strict, strict_ite, strict_pure, vectors_strict, strict_aligned]
  refine congrArg _ (funext fun r => ?_)
  congr 1
  congr 1
  refine congrArg _ (funext fun vs => ?_)
  cases alignLoad (4 * vs.1.flatten.length) vs.2 <;> rfl

theorem loadArray_eq (n : Nat) (b : Bytes) : Loaded.loadArray n b = (take n b).bind fun x => (alignLoad n x.2).map fun r => (x.1, r) := by
  unfold Loaded.loadArray
  refine congrArg _ (funext fun x => ?_)
  cases alignLoad n x.2 <;> rfl

theorem loaded_strict (u : Nat → Nat → Fin 256) (base : Nat) (b : Bytes) : (loaded u base).strict b = Loaded.load base b := by
  unfold loaded Loaded.load
  simp only [strict_bind, strict_header, strict_array, ← loadArray_eq]
  refine congrArg _ (funext fun h => ?_)
  rw [loadArray_eq]
  cases take Loaded.localsLen h.2 with
  | none => rfl
  | some x =>
    simp only [Option.bind_some]
    cases alignLoad Loaded.localsLen x.2 with
    | none => rfl
    | some b =>
      simp only [Option.map_some, Option.bind_some]
      refine congrArg _ (funext fun ls => congrArg _ (funext fun js => ?_))
      by_cases hv : h.1.version = 6
      · rw [if_pos hv, if_pos hv]
        simp only [strict_bind, strict_array, ← loadArray_eq, strict_pure]
        cases Loaded.loadArray (4 * (num (x.1.take 4) * num ((x.1.drop 4).take 4) % 2 ^ 32)) js.2 <;> rfl
      · rw [if_neg hv, if_neg hv]
        simp only [strict_bind, strict_array, ← loadArray_eq, strict_pure, Option.bind_some]

theorem noLimit_strict (u : Nat → Nat → Fin 256) (self : Count.NoLimit) (base : Nat) (b : Bytes) : (noLimit u self base).strict b = Count.NoLimit.load self base b := by
  unfold noLimit Count.NoLimit.load
  simp only [strict_bind, loaded_strict, strict_ite, strict_pure, strict_read, strict_done]
  refine congrArg _ (funext fun r => ?_)
  congr 1
  cases Io.take 4 r.2 with
  | none => rfl
  | some x =>
    simp only [Option.bind_some]
    congr 1
    cases Io.take (4 * (num x.1 - 1)) x.2 <;> rfl

theorem halfFinalState_strict (b : Bytes) : halfFinalState.strict b = HalfFinal.Stored.load b := by
  unfold halfFinalState HalfFinal.Stored.load
  simp only [strict_bind, strict_header, strict_pure, strict_read, strict_done, strict_aligned]
  refine congrArg _ (funext fun h => ?_)
  cases take 16 h.2 with
  | none => rfl
  | some x =>
    simp only [Option.bind_some]
    cases alignLoad 16 x.2 <;> rfl

/-! ### Running -/

/-- Nothing has gone wrong. -/
def Flags.Good (f : Flags) : Prop := f.eof = false ∧ f.fail = false

theorem read_good {S : Source σ} {mask : Flags} {s : σ} {f : Flags} (hf : f.Good) (n : Nat) (old : Bytes) {b : Bytes} {t : σ} (h : S.getn s n = some (b, t)) (hb : b.length = n) :
    read S mask (s, f) n old = .ok (b, (t, f)) := by
  unfold read
  rw [hf.1, hf.2, h]
  simp [hb]

theorem read_short {S : Source σ} {mask : Flags} {s : σ} {f : Flags} (hf : f.Good) (n : Nat) (old : Bytes) {b : Bytes} {t : σ} (h : S.getn s n = some (b, t)) (hb : b.length ≠ n) :
    read S mask (s, f) n old = if mask.eof || mask.fail then .throws else .ok (b ++ old.drop b.length, (t, ⟨true, true⟩)) := by
  unfold read
  rw [hf.1, hf.2, h]
  simp [hb, Flags.throws]

theorem read_failed {S : Source σ} {mask : Flags} {s : σ} {f : Flags} (hf : f.fail = true) (n : Nat) (old : Bytes) :
    read S mask (s, f) n old = if (f.eof && mask.eof) || mask.fail then .throws else .ok (old, (s, f)) := by
  unfold read
  obtain ⟨e, l⟩ := f
  simp only at hf
  subst hf
  simp [Flags.throws]

/-- A stream that has failed does not recover. -/
theorem run_failed {S : Source σ} {mask : Flags} (p : Loader α) : ∀ {s : σ} {f : Flags}, f.fail = true → p.run S mask (s, f) = .throws ∨
    ∃ a, p.run S mask (s, f) = .ok (a, (s, f)) := by
  induction p with
  | done a => intro s f _; exact .inr ⟨a, rfl⟩
  | fail => intro s f _; exact .inl rfl
  | read n old k ih =>
    intro s f hf
    rw [Loader.run, read_failed hf]
    split_ifs
    · exact .inl rfl
    · exact ih old hf

theorem getn_plain (b : Bytes) (n : Nat) : plain.getn b n = some (b.take n, b.drop n) := rfl

/-- What is complete is read alike. -/
theorem run_complete {mask : Flags} (p : Loader α) : ∀ {b r : Bytes} {f : Flags} {a : α}, f.Good → p.strict b = some (a, r) → p.run plain mask (b, f) = .ok (a, (r, f)) := by
  induction p with
  | done a => intro b r f a' _ h; cases h; rfl
  | fail => intro b r f a _ h; cases h
  | read n old k ih =>
    intro b r f a hf h
    rw [strict_read] at h
    by_cases hn : n ≤ b.length
    · rw [take_some hn] at h
      rw [Loader.run, read_good hf n old (getn_plain b n) (by simpa using hn)]
      exact ih _ hf h
    · rw [take_none (by omega)] at h; cases h

/-- What is not complete: an exception, or a stream that has failed. -/
theorem run_incomplete {mask : Flags} (p : Loader α) : ∀ {b : Bytes} {f : Flags}, f.Good → p.strict b = none → p.run plain mask (b, f) = .throws ∨
    (mask.eof = false ∧ mask.fail = false ∧ ∃ a r, p.run plain mask (b, f) = .ok (a, (r, ⟨true, true⟩))) := by
  induction p with
  | done a => intro b f _ h; cases h
  | fail => intro b f _ _; exact .inl rfl
  | read n old k ih =>
    intro b f hf h
    rw [strict_read] at h
    by_cases hn : n ≤ b.length
    · rw [take_some hn] at h
      rw [Loader.run, read_good hf n old (getn_plain b n) (by simpa using hn)]
      exact ih _ hf h
    · rw [Loader.run, read_short hf n old (getn_plain b n) (by simp; omega)]
      split_ifs with hm
      · exact .inl rfl
      · simp only [Bool.or_eq_true, not_or, Bool.not_eq_true] at hm
        rcases run_failed (S := plain) (mask := mask) (k (b.take n ++ old.drop (b.take n).length)) (s := b.drop n) (f := ⟨true, true⟩) rfl with e | ⟨a, e⟩
        · exact .inl e
        · exact .inr ⟨hm.1, hm.2, a, _, e⟩

/-- Two buffers that deliver the same bytes. -/
def Alike (S : Source σ) (T : Source τ) (R : σ → τ → Prop) : Prop := ∀ s t, R s t → ∀ n, ∃ b s' t', S.getn s n = some (b, s') ∧ T.getn t n = some (b, t') ∧ R s' t'

/-- The same for the ends of a loader. -/
inductive SameEnd (R : σ → τ → Prop) : Ended (α × (σ × Flags)) → Ended (α × (τ × Flags)) → Prop
  | ok {a : α} {s : σ} {t : τ} {f : Flags} : R s t → SameEnd R (.ok (a, (s, f))) (.ok (a, (t, f)))
  | throws : SameEnd R .throws .throws

theorem read_alike {S : Source σ} {T : Source τ} {R : σ → τ → Prop} (h : Alike S T R) (mask : Flags) {s : σ} {t : τ} (f : Flags) (hst : R s t) (n : Nat) (old : Bytes) :
    SameEnd R (read S mask (s, f) n old) (read T mask (t, f) n old) := by
  obtain ⟨b, s', t', h1, h2, h3⟩ := h s t hst n
  unfold read
  dsimp only
  rw [h1, h2]
  dsimp only
  by_cases c1 : (f.eof || f.fail) = true
  · rw [if_pos c1, if_pos c1]
    split_ifs
    · exact .throws
    · exact .ok hst
  · rw [if_neg c1, if_neg c1]
    by_cases c2 : b.length = n
    · rw [if_pos c2, if_pos c2]; exact .ok h3
    · rw [if_neg c2, if_neg c2]
      split_ifs
      · exact .throws
      · exact .ok h3

theorem run_alike {S : Source σ} {T : Source τ} {R : σ → τ → Prop} (h : Alike S T R) (mask : Flags) (p : Loader α) : ∀ {s : σ} {t : τ} (f : Flags), R s t →
    SameEnd R (p.run S mask (s, f)) (p.run T mask (t, f)) := by
  induction p with
  | done a => intro s t f hst; exact .ok hst
  | fail => intro s t f _; exact .throws
  | read n old k ih =>
    intro s t f hst
    rw [Loader.run, Loader.run]
    generalize he : read S mask (s, f) n old = e
    generalize he' : read T mask (t, f) n old = e'
    have := read_alike h mask f hst n old
    rw [he, he'] at this
    cases this with
    | ok hr => exact ih _ _ hr
    | throws => exact .throws

theorem asInt_small {n : Nat} (h : n < 2 ^ 31) : asInt n = n := by
  unfold asInt
  rw [Nat.mod_eq_of_lt (by omega), if_pos h]

/-- Less than 2 GB in memory are like a list of bytes. -/
theorem memory_alike : Alike memory plain fun m b => m.data.length < 2 ^ 31 ∧ m.pos ≤ m.data.length ∧ b = m.data.drop m.pos := by
  rintro m b ⟨h1, h2, rfl⟩ n
  have hs : min n (m.data.length - m.pos) < 2 ^ 31 := by omega
  have e : ((m.pos : Int) + (min n (m.data.length - m.pos) : Nat)).toNat = m.pos + min n (m.data.length - m.pos) := by omega
  have et : (m.data.drop m.pos).take (min n (m.data.length - m.pos)) = (m.data.drop m.pos).take n := by
    rw [List.take_eq_take_iff, List.length_drop]; omega
  refine ⟨(m.data.drop m.pos).take n, { m with pos := m.pos + min n (m.data.length - m.pos) }, (m.data.drop m.pos).drop n, ?_, rfl, h1, ?_, ?_⟩
  · unfold memory
    dsimp only
    rw [asInt_small hs, if_neg (by omega), e, et]
  · show m.pos + min n (m.data.length - m.pos) ≤ m.data.length; omega
  · rw [List.drop_drop]
    show m.data.drop (m.pos + n) = m.data.drop (m.pos + min n (m.data.length - m.pos))
    by_cases hn : n ≤ m.data.length - m.pos
    · rw [min_eq_left hn]
    · rw [List.drop_eq_nil_of_le (by omega), List.drop_eq_nil_of_le (by omega)]

/-- A counting buffer delivers what the other one does. -/
theorem counting_alike {S : Source σ} {T : Source τ} {R : σ → τ → Prop} (h : Alike S T R) : Alike (counting S) T fun s t => R s.1 t := by
  intro s t hst n
  obtain ⟨b, s', t', h1, h2, h3⟩ := h s.1 t hst n
  exact ⟨b, (s', s.2 + b.length), t', by unfold counting; dsimp only; rw [h1]; rfl, h2, h3⟩

/-! ### Streams that end too early -/

theorem run_bind {S : Source σ} {mask : Flags} (p : Loader α) (g : α → Loader β) : ∀ s : σ × Flags, (p >>= g).run S mask s =
    match p.run S mask s with
    | .ok (a, s) => (g a).run S mask s
    | .throws => .throws
    | .bad => .bad := by
  rw [bind_def]
  induction p with
  | done a => intro s; rfl
  | fail => intro s; rfl
  | read n old k ih =>
    intro s
    rw [Loader.bind, Loader.run, Loader.run]
    cases Stream.read S mask s n old with
    | ok x => exact ih x.1 x.2
    | throws => rfl
    | bad => rfl

theorem run_stage {mask : Flags} {p : Loader α} {g : α → Loader β} {b r : Bytes} {f : Flags} {a : α} (hf : f.Good) (h : p.strict b = some (a, r)) :
    (p >>= g).run plain mask (b, f) = (g a).run plain mask (r, f) := by
  rw [run_bind, run_complete p hf h]

theorem length_junk (u : Nat → Nat → Fin 256) (i n : Nat) : (junk u i n).length = n := by simp [junk]

/-- The rest of an array remains what it was. -/
theorem array_short (u : Nat → Nat → Fin 256) (i n : Nat) {d : Bytes} {f : Flags} (hf : f.Good) (hd : d.length < n) :
    (array u i n).run plain noMask (d, f) = .ok (d ++ (junk u i n).drop d.length, ([], ⟨true, true⟩)) := by
  unfold array
  have e : d.take n = d := List.take_of_length_le (by omega)
  have e' : d.drop n = [] := List.drop_eq_nil_of_le (by omega)
  rw [run_bind, Loader.run, read_short hf n _ (getn_plain d n) (by rw [e]; omega), e, e']
  show Loader.run plain noMask _ _ = _
  rw [run_bind]
  unfold aligned
  split_ifs
  · rfl
  · rw [Loader.run, read_failed rfl]
    rfl

theorem array_stage (u : Nat → Nat → Fin 256) (i : Nat) {n : Nat} {x r : Bytes} (h : x.length = n) : (array u i n).strict (x ++ (alignSave n ++ r)) = some (x, r) := by
  rw [strict_array, Io.take_append h, Option.bind_some]
  dsimp only
  rw [alignLoad_append (length_alignSave n)]
  rfl

/-- Memory that contains the given bytes from the `k`-th on. -/
def holding (k : Nat) (c : Bytes) : Nat → Nat → Fin 256 := fun _ j => c.getD (j - k) 0

theorem junk_holding (d c : Bytes) (i : Nat) : (junk (holding d.length c) i (d ++ c).length).drop d.length = c := by
  apply List.ext_getElem?
  intro j
  rw [junk, ← List.map_drop, List.getElem?_map, List.getElem?_drop]
  by_cases hj : j < c.length
  · rw [List.getElem?_range (by rw [List.length_append]; omega)]
    simp [holding, hj]
  · rw [List.getElem?_eq_none (by simp; omega), List.getElem?_eq_none (by omega)]
    rfl

theorem simple_cut {null : Simple} {base : Nat} {n i : Nat} (hn : n < 2 ^ 64) (hi : i < 2 ^ 64) {d c : Bytes} (hc : c ≠ [])
    (hl : (d ++ c).length = Simple.bufSize n % 2 ^ 64) {f : Flags} (hf : f.Good) :
    ∃ x, Simple.load null base ((Header.mk' 2 Simple.localsLen).bytes ++ alignSave headerLen ++
        ((le 8 n ++ le 8 i) ++ (alignSave Simple.localsLen ++ (le 1 0 ++ (alignSave 1 ++ (d ++ c)))))) = some (x, []) ∧
      (simple (holding d.length c) null base).run plain noMask ((Header.mk' 2 Simple.localsLen).bytes ++ alignSave headerLen ++
        ((le 8 n ++ le 8 i) ++ (alignSave Simple.localsLen ++ (le 1 0 ++ (alignSave 1 ++ d)))), f) = .ok (x, ([], ⟨true, true⟩)) := by
  have ht : tail (Simple.bufSize n % 2 ^ 64) = 0 := by
    unfold tail Scn.alignUp Simple.bufSize; omega
  have hpos : 0 < c.length := List.length_pos_iff.2 hc
  refine ⟨Simple.placeAt n i base (Multi.blockMem base (d ++ c)), ?_, ?_⟩
  · refine (Simple.load_save_stage hn hi false (d ++ c)).trans ?_
    rw [if_neg (by decide)]
    have h1 : take (Simple.bufSize n % 2 ^ 64) (d ++ c) = some (d ++ c, []) := by
      rw [← hl, take_some le_rfl]; simp
    rw [h1, Option.bind_some]
    unfold alignLoad
    rw [ht, take_zero]
    rfl
  · unfold simple
    rw [run_stage hf ((strict_header _ _ _).trans (loadHeader_append Simple.header_ok (mk'_valid _ _)))]
    rw [run_stage hf (array_stage _ 1 (by simp [Simple.localsLen]))]
    rw [run_stage hf (array_stage _ 2 (length_le 1 0))]
    rw [if_neg (show ¬ num (le 1 0) ≠ 0 by decide)]
    have e1 : num ((le 8 n ++ le 8 i).take 8) = n := by rw [List.take_left' (length_le _ _), num_le8 _ hn]
    have e2 : num (((le 8 n ++ le 8 i).drop 8).take 8) = i := by
      rw [List.drop_left' (length_le _ _), List.take_of_length_le (by simp), num_le8 _ hi]
    rw [e1, e2]
    dsimp only
    rw [run_bind, array_short _ _ _ hf (by rw [← hl, List.length_append]; omega), ← hl, junk_holding]
    rfl

theorem reloc_cut {P : Policy} {null : Multi} {base : Nat} {m : Locals} (hP : P.Real) (hm : Multi.Storable P m) (hi : m.initial < 2 ^ 64)
    (pad : Nat → Fin 256) {d c : Bytes} (hc : c ≠ []) (hl : (d ++ c).length = Multi.bufSize P m % 2 ^ 64) (ht : tail (Multi.bufSize P m % 2 ^ 64) = 0) {f : Flags} (hf : f.Good) :
    ∃ x, Multi.loadReloc P null base ((Header.mk' 1 Multi.localsLen).bytes ++ alignSave headerLen ++
        (Multi.localsBytes m pad ++ (alignSave Multi.localsLen ++ (le 1 0 ++ (alignSave 1 ++ (d ++ c)))))) = some (x, []) ∧
      (reloc (holding d.length c) P null base).run plain noMask ((Header.mk' 1 Multi.localsLen).bytes ++ alignSave headerLen ++
        (Multi.localsBytes m pad ++ (alignSave Multi.localsLen ++ (le 1 0 ++ (alignSave 1 ++ d)))), f) = .ok (x, ([], ⟨true, true⟩)) := by
  have hpos : 0 < c.length := List.length_pos_iff.2 hc
  refine ⟨Multi.loadedAt base m (d ++ c), ?_, ?_⟩
  · refine (Multi.loadReloc_stage hP hm hi pad false (d ++ c)).trans ?_
    rw [if_neg (by decide)]
    have h1 : take (Multi.bufSize P m % 2 ^ 64) (d ++ c) = some (d ++ c, []) := by
      rw [← hl, take_some le_rfl]; simp
    rw [h1, Option.bind_some]
    unfold alignLoad
    rw [ht, take_zero]
    rfl
  · unfold reloc
    rw [run_stage hf ((strict_header _ _ _).trans (loadHeader_append Multi.header_ok (mk'_valid _ _)))]
    rw [run_stage hf (array_stage _ 1 (n := Multi.localsLen) (Multi.length_localsBytes m pad))]
    rw [Multi.locals_roundtrip hP hm hi pad]
    dsimp only
    rw [if_neg (by simpa using hm.short)]
    rw [run_stage hf (array_stage _ 2 (length_le 1 0))]
    rw [if_neg (show ¬ num (le 1 0) ≠ 0 by decide)]
    rw [run_bind, array_short _ _ _ hf (by rw [← hl, List.length_append]; omega), ← hl, junk_holding]
    unfold Multi.loadedAt
    rfl

end Stream
end Pire
